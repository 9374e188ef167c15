import Verif.Props.CwdLost
import Verif.World.Below
/-!
# Commands in a directory below the top of a workspace (C106)

A command is given in a directory of a workspace, not at its top. `GetWorkspaceFromPath` looks at the path of that directory only. If the process knows the directory by the path
of the workspace, it finds no workspace there. If it knows it by its real path, which is below `<data root>/mounts`, it finds the mount and takes the directory for the
path of the workspace.
-/
set_option autoImplicit false
namespace Verif
open M TS Json

section
variable {E : Env} {f : Faults}

/-! ## Known by the path of the workspace -/

theorem below_refused {α : Type} {d d' : Disk} {cwd path : Str} (hout : E.Outside (Path.abs cwd path)) (hnl : ∀ t, d.user (Path.abs cwd path) ≠ .link t) {k : OpenWs → M α}
    {r : Res CErr α} (he : Exec E f (getWorkspace E cwd path >>= k : M α) d r d') : r = .err .path ∧ d' = d := by
  have hid : ∃ e, mountIDOf E.root cwd path none = .err e := by
    have ht : targetOf cwd path none = Path.comps (Path.abs cwd path) := targetOf_none _ _
    cases h : mountIDOf E.root cwd path none with
    | ok m =>
      obtain ⟨name, rest, h1, _⟩ := (C44_leads_to_iff _ _ _ _ _).1 h
      rw [ht] at h1
      exact absurd h1 (hout _)
    | panic =>
      obtain ⟨name, rest, h1, _⟩ := (C44_violated_exactly _ _ _ _).1 h
      rw [ht] at h1
      exact absurd h1 (hout _)
    | err e => exact ⟨e, rfl⟩
    | diverge =>
      rw [mountIDOf_eq] at h
      exact absurd h (decodeBase32_not_diverge _)
  obtain ⟨e, hid⟩ := hid
  have hw : wpm E f (fun _ => True) (getWorkspace E cwd path) (fun _ _ => False) (fun e d' => e = .path ∧ d' = d) d := by
    rw [getWorkspace_rest]
    unfold linkOf
    refine wpm_bind (wpm_call fun a d1 h1 => ?_)
    obtain ⟨rfl, h1⟩ := h1
    refine ⟨trivial, ?_⟩
    have ha : a = false := by
      rcases h1 with h1 | ⟨n, h1⟩ | ⟨h1, _⟩
      · cases a with
        | false => rfl
        | true => obtain ⟨t, ht⟩ := h1.1 rfl; exact absurd ht (hnl t)
      · exact absurd h1 (off_of_outside hout n)
      · exact h1
    subst ha
    refine wpm_pure ?_
    rw [hid]
    exact wpm_fail ⟨rfl, rfl⟩
  obtain ⟨x, d1, h1, h2⟩ := exec_bind he
  have := wpm_exec hw h1
  cases x with
  | ok a => exact this.elim
  | err e => cases h2; exact ⟨by rw [this.1], this.2⟩
  | panic => exact this.elim
  | diverge => exact this.elim

/-- **C106, part.** A command in a directory which is known by a path that is neither a link nor below the directory of the mounts - as every directory below the top of a
workspace is, by the path of the workspace - is refused with an error, and changes nothing. So is a clone of such a directory, and every other command that begins by
opening its workspace. -/
theorem C106_refused_partial {d d' : Disk} {cwd : Str} (hout : E.Outside (Path.abs cwd (lit "."))) (hnl : ∀ t, d.user (Path.abs cwd (lit ".")) ≠ .link t) :
    (∀ ci r, Exec E f (commitCmd E cwd ci) d r d' → r = .err .path ∧ d' = d) ∧
    (∀ key r, Exec E f (checkoutCmd E cwd key) d r d' → r = .err .path ∧ d' = d) ∧
    (∀ es r, Exec E f (editCmd E cwd es) d r d' → r = .err .path ∧ d' = d) ∧
    (∀ target r, Exec E f (cloneCmd E cwd (lit ".") target) d r d' → r = .err .path ∧ d' = d) ∧
    ∀ (α : Type) (k : OpenWs → M α) r, Exec E f (getWorkspace E cwd (lit ".") >>= k : M α) d r d' → r = .err .path ∧ d' = d :=
  ⟨fun _ _ h => below_refused hout hnl h, fun _ _ h => below_refused hout hnl h, fun _ _ h => below_refused hout hnl h, fun _ _ h => below_refused hout hnl h,
    fun _ _ _ h => below_refused hout hnl h⟩

/-! ## Known by its real path -/

/-- The real path of the directory `xs` of the mount `i`. -/
def Env.belowPath (E : Env) (i : UID) (xs : List Str) : Str := joinRoot E.root ([lit "mounts", i.base32, lit "merged"] ++ xs)

theorem below_path {i : UID} {xs : List Str} (hne : xs ≠ []) (hx : ∀ c ∈ xs, Path.Plain c) :
    E.Below (E.belowPath i xs) i xs ∧ Path.abs (E.belowPath i xs) (lit ".") = E.belowPath i xs := by
  have hc : Path.comps (E.belowPath i xs) = Path.comps E.root ++ [lit "mounts", i.base32, lit "merged"] ++ xs := by
    rw [List.append_assoc]
    refine Path.comps_render fun c hc => ?_
    have hm : c ∈ Path.comps (E.mountPath i.base32) ++ xs := by rw [comps_mountPath, List.append_assoc]; exact hc
    rcases List.mem_append.1 hm with h | h
    · exact Path.comps_plain _ c h
    · exact hx c h
  refine ⟨⟨hne, hc⟩, ?_⟩
  have ha : Path.abs (E.belowPath i xs) (E.belowPath i xs) = E.belowPath i xs := by
    unfold Path.abs
    rw [if_pos (by rfl)]
    unfold Path.clean
    rw [hc, List.append_assoc]; rfl
  have := abs_dot (E.belowPath i xs) (E.belowPath i xs)
  rwa [ha] at this


theorem below_leads {Q : Str} (hQ : Path.abs Q (lit ".") = Q) {i : UID} {xs : List Str} (hb : E.Below Q i xs) : mountIDOf E.root Q (lit ".") none = .ok i := by
  rw [C44_leads_to_iff]
  refine ⟨i.base32, lit "merged" :: xs, ?_, (C05_base32_decode_iff i.base32 i).1 (C02_base32_roundtrip i)⟩
  have h1 : targetOf Q (lit ".") none = Path.comps (Path.abs Q (lit ".")) := targetOf_none _ _
  rw [h1, hQ, hb.2]
  simp

theorem getWorkspace_below {d : Disk} {cwd path : Str} {w : OpenWs} {u p : UID} (h : Opens E d cwd path w u p) {Q : Str} (hQ : Path.abs Q (lit ".") = Q) {xs : List Str}
    (hb : E.Below Q w.mount.id xs) (hdir : d.ShowsDir w.mount.id.base32 xs.reverse) :
    (∀ r d', ExecBelow E (getWorkspace E Q (lit ".")) d r d' → r = .ok (w.atPath Q) ∧ d' = d) ∧ ExecBelow E (getWorkspace E Q (lit ".")) d (.ok (w.atPath Q)) d := by
  rw [getWorkspace_rest, hQ]
  obtain ⟨g1, g2⟩ := getRest_opens h Q
  constructor
  · intro r d' he
    obtain ⟨q, d1, h1, h2⟩ := execBelow_bind he
    unfold linkOf at h1
    cases h1 with | @op _ _ _ d2 _ a _ h3 h4 =>
    obtain ⟨e, ha⟩ := h3
    obtain rfl : a = false := ha _ _ hb hdir
    obtain rfl := e.1.symm
    cases h4
    obtain ⟨q, d1, h5, h6⟩ := execBelow_bind h2
    rw [below_leads hQ hb] at h5
    cases h5
    exact g1 _ _ (execBelow_exec h6)
  · refine execBelow_trans (a := .ok none) (d1 := d) ?_ (execBelow_trans (a := .ok w.mount.id) (d1 := d) ?_ ?_)
    · unfold linkOf
      exact .op (x := false) ⟨⟨rfl, Or.inr (Or.inl ⟨_, below_inside hb⟩)⟩, fun _ _ _ _ => rfl⟩ (.ret _ _)
    · rw [below_leads hQ hb]; exact .ret _ _
    · exact execBelow_of_flat (flat_of_calm (getRest_calms _ _)) g2

/-! ## What a mount shows -/

theorem view_parent {ls : List Content} {x y : Str} {p : List Str} (h : view ls (x :: y :: p) ≠ none) : ∃ a, view ls (y :: p) = some (.dir a) := by
  have key : ∀ S : List Content, merge (y :: p) S ≠ [] → ∃ a, topEnt (y :: p) S = some (.dir a) := by
    intro S
    induction S with
    | nil => intro h; exact absurd rfl h
    | cons c S ih =>
      intro h
      unfold merge at h
      unfold topEnt
      cases hc : c (y :: p) with
      | none => rw [hc] at h; exact ih h
      | some e =>
        rw [hc] at h
        cases e with
        | file b => exact absurd rfl h
        | whiteout => exact absurd rfl h
        | dir o a => exact ⟨a, rfl⟩
  refine key _ fun e => h ?_
  rw [view, stack, e]; rfl

theorem shows_parent {d : Disk} {n : Str} {x y : Str} {p : List Str} (h : d.ShowsDir n (x :: y :: p)) : d.ShowsDir n (y :: p) := by
  obtain ⟨a, h⟩ := h
  unfold Disk.ShowsDir
  cases hm : d.mnt n with
  | some m =>
    have e : ∀ r, d.shows n r = view ((m.upper :: m.lowers).map d.content) r := fun r => by simp only [Disk.shows, hm]
    rw [e] at h ⊢
    exact view_parent (by rw [h]; simp)
  | none =>
    cases hd : d.mdir n with
    | none => simp only [Disk.shows, hm, hd] at h; cases h
    | some md =>
      obtain ⟨mg, wk⟩ := md
      cases mg with
      | none => simp only [Disk.shows, hm, hd] at h; cases h
      | some c =>
        have e : ∀ r, d.shows n r = view [c] r := fun r => by simp only [Disk.shows, hm, hd]
        rw [e] at h ⊢
        exact view_parent (by rw [h]; simp)

/-- The entry of the parent directory. -/
theorem parent_dir {d : Disk} {n : Str} {q : List Str} (h : d.ShowsDir n q) : q.tail = [] ∨ d.ShowsDir n q.tail := by
  match q, h with
  | [], _ => exact Or.inl rfl
  | [_], _ => exact Or.inl rfl
  | x :: y :: p, h => exact Or.inr (shows_parent h)

/-! ## Replacing the directory by a link -/

/-- What `Expand` has done to a directory below the top of a mount: only the content of the upper layer of that mount is another, and there is a link in place of the directory. -/
structure DirReplaced (d d' : Disk) (n : Str) (m : Mnt) (q : List Str) : Prop where
  layer : ∀ v, v ≠ m.upper → d'.layer v = d.layer v
  space : d'.space = d.space
  mdir : d'.mdir = d.mdir
  info : d'.info = d.info
  mnt : d'.mnt = d.mnt
  user : d'.user = d.user
  shows_ : ∃ data, ∀ r, d'.shows n r = if r = q then some (.file data) else d.shows n r

theorem shown_rest {d d' : Disk} {n : Str} {m : Mnt} {q : List Str} {x : Option VEnt} (h : Shown d n m q x d') :
    (∀ v, v ≠ m.upper → d'.layer v = d.layer v) ∧ d'.space = d.space ∧ d'.mdir = d.mdir ∧ d'.info = d.info ∧ d'.mnt = d.mnt ∧ d'.user = d.user := by
  obtain ⟨c, rfl, _⟩ := h
  obtain ⟨h1, h2, h3, h4, h5, _⟩ := put_rest d m.upper c
  exact ⟨fun v hv => (put_layer d m.upper v c).resolve_right fun h => hv h.1, h1, h2, h3, h4, h5⟩

theorem relink_below {w' : OpenWs} {i : UID} {xs : List Str} {m : Mnt} (hb : E.Below w'.ws.path i xs) {d : Disk} (hm : d.mnt i.base32 = some m)
    (hdir : d.ShowsDir i.base32 xs.reverse) {r : Res CErr Unit} {d' : Disk} (h : ExecBelow E (relink E w') d r d') :
    ((∀ x, d.shows i.base32 (x :: xs.reverse) = none) → r = .ok () ∧ DirReplaced d d' i.base32 m xs.reverse) ∧
    ((∃ x, d.shows i.base32 (x :: xs.reverse) ≠ none) → r = .err .clearPath ∧ d' = d) := by
  have hne : xs.reverse ≠ [] := fun e => hb.1 (List.reverse_eq_nil_iff.1 e)
  have htail : xs.reverse.tail ≠ xs.reverse := by
    intro e
    have := congrArg List.length e
    rw [List.length_tail] at this
    have : xs.reverse.length ≠ 0 := fun h => hne (List.length_eq_zero_iff.1 h)
    omega
  unfold relink at h
  cases h with | @op _ _ _ _ _ x1 _ h1 h =>
  obtain ⟨rfl, -, e1⟩ | ⟨rfl, h1, _⟩ := h1
  rotate_left
  · rcases h1 with h1 | h1
    · exact absurd trivial h1
    · cases h1
  obtain rfl := e1.symm
  cases h with | @op _ _ _ _ _ x1 _ h1 h =>
  obtain ⟨rfl, -, e1⟩ | ⟨rfl, h1, _⟩ := h1
  rotate_left
  · rcases h1 with h1 | h1
    · exact absurd trivial h1
    · cases h1
  obtain rfl := e1.symm
  cases h with | @op _ _ _ _ _ x1 _ h1 h =>
  obtain ⟨⟨e1, _⟩, h1⟩ := h1
  obtain rfl := e1.symm
  obtain rfl : x1 = true := h1 _ _ hb hdir
  cases h with | @op _ _ _ d1 _ x1 _ h1 h =>
  obtain ⟨_, h1⟩ := h1
  obtain ⟨h1, h1'⟩ := h1 _ _ _ hb hm hdir
  refine ⟨fun hemp => ?_, fun hfull => ?_⟩
  rotate_left
  · obtain ⟨e1, e2⟩ := h1' hfull
    obtain rfl := e2.symm
    obtain rfl : x1 = false := e1
    cases h
    exact ⟨rfl, rfl⟩
  obtain ⟨e1, hs1⟩ := h1 hemp
  obtain rfl : x1 = true := e1
  obtain ⟨a1, a2, a3, a4, a5, a6⟩ := shown_rest hs1
  have s1 := hs1.choose_spec.2
  cases h with | @op _ _ _ d2 _ x1 _ h2 h =>
  obtain ⟨e1, data, hs2⟩ := h2.2 _ _ m hb (by rw [a5]; exact hm) (by
    rcases parent_dir hdir with h | ⟨a, h⟩
    · exact Or.inl h
    · exact Or.inr ⟨a, by rw [s1, if_neg htail]; exact h⟩) (by rw [s1, if_pos rfl])
  obtain rfl : x1 = true := e1
  obtain ⟨b1, b2, b3, b4, b5, b6⟩ := shown_rest hs2
  have s2 := hs2.choose_spec.2
  cases h with | @op _ _ _ d3 _ x1 _ h3 h =>
  obtain ⟨e1, data', hs3⟩ := h3.2 _ _ m hb (by rw [b5, a5]; exact hm) ⟨data, by rw [s2, if_pos rfl]⟩
  obtain rfl : x1 = true := e1
  obtain ⟨c1, c2, c3, c4, c5, c6⟩ := shown_rest hs3
  have s3 := hs3.choose_spec.2
  cases h with | @op _ _ _ d4 _ x1 _ h4 h =>
  obtain ⟨rfl, -, e1⟩ | ⟨rfl, h1, _⟩ := h4
  rotate_left
  · rcases h1 with h1 | h1
    · exact absurd trivial h1
    · cases h1
  obtain rfl := e1.symm
  cases h
  refine ⟨rfl, fun v hv => by rw [c1 v hv, b1 v hv, a1 v hv], by rw [c2, b2, a2], by rw [c3, b3, a3], by rw [c4, b4, a4], by rw [c5, b5, a5], by rw [c6, b6, a6], data', fun r => ?_⟩
  rw [s3]
  split
  · rfl
  · rename_i hr
    rw [s2, if_neg hr, s1, if_neg hr]

/-! ## A workspace whose mount is gone -/

theorem gone {d : Disk} {P : Str} (hP : Path.abs P (lit ".") = P) (hoff : E.Off P) {t : Str} (hlk : d.user P = .link t) {i : UID} (hid : mountIDOf E.root P (lit ".") (some t) = .ok i)
    (hi : d.info i.base32 = none) (w : OpenWs) : ¬ Gets E d P (lit ".") w := by
  intro h
  have hw : wpm E Faults.none (fun _ => True) (getWorkspace E P (lit ".")) (fun _ _ => False) (fun _ _ => True) d := by
    rw [getWorkspace_rest, hP]
    unfold linkOf
    refine wpm_bind (wpm_call fun a d1 h1 => ?_)
    obtain ⟨rfl, h1⟩ := h1
    refine ⟨trivial, ?_⟩
    cases a with
    | false =>
      rcases h1 with h1 | ⟨n, h1⟩ | ⟨_, h1⟩
      · exact absurd (h1.2 ⟨t, hlk⟩) (by simp)
      · exact absurd h1 (hoff n)
      · cases h1
    | true =>
      refine wpm_call fun a d2 h2 => ?_
      obtain ⟨rfl, h2⟩ := h2
      refine ⟨trivial, ?_⟩
      have ha : a = some t := by
        rcases h2 with ⟨t', h2, rfl⟩ | ⟨n, h2⟩ | ⟨_, h2 | h2⟩
        · rw [hlk] at h2; cases h2; rfl
        · exact absurd h2 (hoff n)
        · exact absurd hlk (h2 t)
        · cases h2
      subst ha
      refine wpm_pure (wpm_bind (wpm_lift_ok hid ?_))
      unfold getRest loadInfo
      refine wpm_bind (wpm_call fun r d3 h3 => ?_)
      obtain ⟨rfl, h3⟩ := h3
      refine ⟨trivial, ?_⟩
      rw [hi] at h3
      cases r with
      | ok b => simp at h3
      | notExist => exact wpm_fail trivial
      | failed b => exact absurd h3.1 (by simp [Faults.none])
  exact wpm_exec hw h

/-! ## The commands -/

/-- What such a command leaves when the directory was empty: the path of the workspace leads to a mount that is gone, so there is no workspace at it any more; and the layer `u`
on its parents `lp` has a file where the directory was. -/
def Displaced (E : Env) (d d' : Disk) (P : Str) (u : UID) (lp : List UID) (q : List Str) : Prop :=
  d'.user P = d.user P ∧ (∀ w1, ¬ Gets E d' P (lit ".") w1) ∧ (∃ at', view ((u :: lp).map d.content) q = some (.dir at')) ∧
    ∃ data, view ((u :: lp).map d'.content) q = some (.file data)

theorem below_cmd {d : Disk} {g : Str → Option TS} (hS : Steady E d g) {P : Str} (hP : Path.abs P (lit ".") = P) (hout : E.Outside P) {w : OpenWs} {u p : UID} {T0 : TS}
    (hF : Found E d g P (lit ".") w u p T0) {q : UID} {ls lp : List UID} (hls : w.tree.abs.Path q ls) (hlp : w.tree.abs.Path p lp) (hfit : E.Fits ls.length) (hmt : d.Mounted w)
    (hlink : ∃ m c, d.user P = .link (E.mountPath w.mount.id.base32) ∧ d.mdir w.mount.id.base32 = some m ∧ m.merged = some c)
    {Q : Str} (hQ : Path.abs Q (lit ".") = Q) {xs : List Str} (hb : E.Below Q w.mount.id xs) (hdir : d.ShowsDir w.mount.id.base32 xs.reverse)
    {y : OpenWs → M OpenWs} {T : UID → ATree}
    (hwp : wpm E Faults.none (fun _ => True) (y (w.atPath Q)) (fun w' d2 => ∃ u' ls, Prepared E d d2 (w.atPath Q) w' q u' ls (T u')) (fun _ _ => False) d)
    (hSh : ∀ u', ¬ w.tree.abs.Has u' → (T u').Shallow) (hbel : ∀ u', ¬ w.tree.abs.Has u' → Below (T u') u p) {r : Res CErr (OpenWs × OpenWs)} {d' : Disk}
    (h : ExecBelow E (getWorkspace E Q (lit ".") >>= fun w => y w >>= fun w' => expand E w' >>= fun _ => removeMount w.mount >>= fun _ => Pure.pure (w, w') : M (OpenWs × OpenWs)) d r d') :
    ((∃ x, d.shows w.mount.id.base32 (x :: xs.reverse) ≠ none) → r = .err .clearPath ∧
      ∃ w1 u', ¬ w.tree.abs.Has u' ∧ Stays E d d' P w w1 u p ∧ ComesBack (T u') w1.tree.abs) ∧
    ((∀ x, d.shows w.mount.id.base32 (x :: xs.reverse) = none) → (∃ x, r = .ok x) ∧ Displaced E d d' P u lp xs.reverse ∧
      ∃ t u', ¬ w.tree.abs.Has u' ∧ d'.loads w.spaceDir = .ok t ∧ ComesBack (T u') t.abs) := by
  have ho := hF.opens
  obtain ⟨md, c, hlk, hmd, hmc⟩ := hlink
  obtain ⟨o1, _⟩ := getWorkspace_below ho hQ hb hdir
  obtain ⟨m, hm⟩ : ∃ m, d.mnt w.mount.id.base32 = some m := Option.ne_none_iff_exists'.1 hmt
  obtain ⟨m1, m2⟩ := mnt_of_found hS hF hm
  obtain rfl : m.lowers = lp := Ws.path_unique m2 hlp
  have hcov : ∀ v ∈ m.upper :: m.lowers, ∃ c, d.layer v = some (some c) := by
    intro v hv
    rcases List.mem_cons.1 hv with rfl | hv
    · rw [m1]; obtain ⟨_, n, hn, _⟩ := ho.head; exact ho.stored _ ⟨n, hn⟩
    · exact path_stored ho m2 v hv
  obtain ⟨z, d1, h1, h⟩ := execBelow_bind h
  obtain ⟨rfl, e2⟩ := o1 _ _ h1
  obtain rfl := e2.symm
  obtain ⟨z, d2, h2, h⟩ := execBelow_bind h
  have hq := wpm_exec hwp (execBelow_exec h2)
  cases z with
  | err e => exact hq.elim
  | panic => exact hq.elim
  | diverge => exact hq.elim
  | ok w' =>
    obtain ⟨u', ls', hp⟩ := hq
    obtain ⟨hne, hmp⟩ := prepared_mounts hout hF hls hfit hlk hmd hmc hp
    obtain ⟨z, d4, h4, h⟩ := execBelow_bind h
    rw [expand_eq] at h4
    obtain ⟨q3, d3, h3, h4⟩ := execBelow_bind h4
    obtain ⟨rfl, hx, r1, r2, ruser⟩ := hmp _ _ (execBelow_exec h3)
    have hlay : ∀ v, (∃ c, d.layer v = some (some c)) → d3.layer v = d.layer v := fun v ⟨c, hv⟩ => by
      have hvu : v ≠ u' := by rintro rfl; rw [hp.newLayer] at hv; cases hv
      rw [hx.layer v hvu, hp.layer v hvu]
    have hsh : ∀ r, d3.shows w.mount.id.base32 r = d.shows w.mount.id.base32 r := by
      intro r
      simp only [Disk.shows, r2, hm]
      congr 1
      refine List.map_congr_left fun v hv => ?_
      simp only [Disk.content, hlay v (hcov v hv)]
    have hb' : E.Below w'.ws.path w.mount.id xs := by rw [hp.wsPath]; exact hb
    obtain ⟨k1, k2⟩ := relink_below hb' (d := d3) (by rw [r2]; exact hm) (by obtain ⟨a, ha⟩ := hdir; exact ⟨a, by rw [hsh]; exact ha⟩) h4
    refine ⟨fun hfull => ?_, fun hemp => ?_⟩
    · obtain ⟨rfl, rfl⟩ := k2 (by simpa only [hsh] using hfull)
      cases h
      exact ⟨rfl, prepared_stays hS hP hF hmt hSh hbel hp hx hne r2 (by rw [ruser])⟩
    · obtain ⟨rfl, hs⟩ := k1 (by simpa only [hsh] using hemp)
      obtain ⟨z, d5, h5, h⟩ := execBelow_bind h
      have hdirm : w.mount.dir = w.mount.id.base32 := by rw [ho.mount]
      have hrm := wpm_exec (removeMount_wp (E := E) (f := Faults.none) (d := d4) (m := w.mount) hdirm) (execBelow_exec h5)
      cases z with
      | panic => exact hrm.elim
      | diverge => exact hrm.elim
      | err e =>
        rcases hrm.2.2 with h | ⟨h, _⟩
        · cases h
        · cases h
      | ok x =>
        obtain rfl : d5 = removed w.mount.id.base32 d4 := hrm
        cases h
        refine ⟨⟨_, rfl⟩, ⟨?_, ?_, ?_, ?_⟩, ?_⟩
        · show d4.user P = _
          rw [hs.user, ruser]
        · intro w1
          refine gone hP (off_of_outside hout) (t := E.mountPath w.mount.id.base32) (i := w.mount.id) ?_ ?_ ?_ w1
          · show d4.user P = _
            rw [hs.user, ruser]; exact hlk
          · obtain ⟨t, t1, t2⟩ := ho.link
            rw [hP, hlk] at t1
            cases t1
            exact t2
          · show upd d4.info _ none _ = none
            rw [upd_self]
        · obtain ⟨a, ha⟩ := hdir
          refine ⟨a, ?_⟩
          simp only [Disk.shows, hm] at ha
          rw [← m1]; exact ha
        · obtain ⟨data, hd⟩ := hs.shows_
          refine ⟨data, ?_⟩
          have := hd xs.reverse
          rw [if_pos rfl] at this
          have hm4 : d4.mnt w.mount.id.base32 = some m := by rw [hs.mnt, r2]; exact hm
          simp only [Disk.shows, hm4] at this
          rw [← m1]; exact this
        · obtain ⟨b, hb, hbs⟩ := hp.space
          have htree : w'.tree.abs = T u' := hp.tree
          have hnew : ¬ w.tree.abs.Has u' := hp.newNode
          obtain ⟨t, k1, k2', k3'⟩ := (load_saved hp.reach hb).1 (by rw [htree]; exact hSh u' hnew)
          refine ⟨t, u', hnew, ?_, by rw [← htree]; exact k3'⟩
          have : (removed w.mount.id.base32 d4).space w.spaceDir = some (some b) := by
            show d4.space _ = _
            rw [hs.space, hx.space]; exact hbs
          simp only [Disk.loads, this]
          exact k1

/-! ## There are such runs -/

/-- One entry of the upper layer, at the top, is replaced by a file or a whiteout. -/
theorem view_swap (c : Content) (ls : List Content) (x : Str) {e : Ent} (he : ∀ o a, e ≠ .dir o a) (hemp : ∀ y, view (c :: ls) [y, x] = none) (r : List Str) :
    view (upd c [x] (some e) :: ls) r = if r = [x] then (match e with | .file b => some (.file b) | _ => none) else view (c :: ls) r := by
  have hne : ∀ r, r ≠ [x] → upd c [x] (some e) r = c r := fun r hr => upd_ne _ _ hr
  -- below another entry
  have apart : ∀ p : List Str, (∀ s, p ≠ s ++ [x]) → ∃ (b : Bool) (rest : List Content), stack (c :: ls) p = (if b then c :: rest else rest) ∧
      stack (upd c [x] (some e) :: ls) p = if b then upd c [x] (some e) :: rest else rest := by
    intro p
    induction p with
    | nil => intro _; exact ⟨true, ls, rfl, rfl⟩
    | cons z p ih =>
      intro hp
      obtain ⟨b, rest, h1, h2⟩ := ih fun s hs => hp (z :: s) (by rw [hs]; rfl)
      have hz : z :: p ≠ [x] := hp []
      rw [stack, stack, h1, h2]
      cases b with
      | false => exact ⟨false, _, rfl, rfl⟩
      | true =>
        simp only [if_true, merge, hne _ hz]
        cases hc : c (z :: p) with
        | none => exact ⟨false, _, rfl, rfl⟩
        | some en =>
          cases en with
          | file b => exact ⟨false, _, rfl, rfl⟩
          | whiteout => exact ⟨false, _, rfl, rfl⟩
          | dir o a => cases o <;> exact ⟨true, _, rfl, rfl⟩
  -- below this entry
  have under : ∀ s : List Str, stack (upd c [x] (some e) :: ls) (s ++ [x]) = [] := by
    intro s
    induction s with
    | nil =>
      simp only [List.nil_append, stack, merge, upd_self]
      cases e with
      | file b => rfl
      | whiteout => rfl
      | dir o a => exact absurd rfl (he o a)
    | cons z s ih =>
      rw [List.cons_append, stack, ih]; rfl
  have void : ∀ s : List Str, ∀ y, view (c :: ls) (y :: (s ++ [x])) = none := by
    intro s
    induction s with
    | nil => exact hemp
    | cons z s ih =>
      intro y
      by_cases h : view (c :: ls) (y :: (z :: s ++ [x])) = none
      · exact h
      · obtain ⟨a, ha⟩ := view_parent h
        exact absurd ((ih z).symm.trans ha) (by simp)
  cases r with
  | nil =>
    simp only [view, topEnt, hne [] (by simp)]
    rw [if_neg (by simp)]
  | cons y p =>
    by_cases hr : y :: p = [x]
    · rw [if_pos hr, hr]
      simp only [view, stack, topEnt, upd_self]
      cases e with
      | file b => rfl
      | whiteout => rfl
      | dir o a => exact absurd rfl (he o a)
    rw [if_neg hr]
    by_cases hp : ∃ s, p = s ++ [x]
    · obtain ⟨s, rfl⟩ := hp
      rw [void, view, under]; rfl
    · obtain ⟨b, rest, h1, h2⟩ := apart p fun s hs => hp ⟨s, hs⟩
      rw [view, view, h1, h2]
      cases b with
      | false => rfl
      | true => simp only [if_true, topEnt, hne _ hr]

theorem put_content_self {d : Disk} {u : UID} (h : d.HasDiff u) (c : Content) : (d.put u c).content u = c := by
  obtain ⟨c0, h⟩ := h
  simp [Disk.content, Disk.put, h, Disk.setLayer]

theorem put_content_ne {d : Disk} {u v : UID} (h : v ≠ u) (c : Content) : (d.put u c).content v = d.content v := by
  simp only [Disk.content, (put_layer d u v c).resolve_right fun e => h e.1]

theorem shown_put {d : Disk} {n : Str} {m : Mnt} (hm : d.mnt n = some m) (hu : d.HasDiff m.upper) (hn : m.upper ∉ m.lowers) (c : Content) (r : List Str) :
    (d.put m.upper c).shows n r = view (c :: m.lowers.map d.content) r := by
  simp only [Disk.shows, (put_rest d m.upper c).2.2.2.1, hm, List.map_cons, put_content_self hu]
  congr 2
  exact List.map_congr_left fun v hv => put_content_ne (by rintro rfl; exact hn hv) c

theorem relink_below_full {w' : OpenWs} {i : UID} {xs : List Str} {m : Mnt} (hb : E.Below w'.ws.path i xs) {d : Disk} (hm : d.mnt i.base32 = some m)
    (hfull : ∃ x, d.shows i.base32 (x :: xs.reverse) ≠ none) : ExecBelow E (relink E w') d (.err .clearPath) d := by
  have hin := below_inside hb
  unfold relink
  refine .op (c := .sys .getwd) (x := true) (Or.inl ⟨rfl, trivial, rfl⟩) (.op (c := .sys .chdirRoot) (x := true) (Or.inl ⟨rfl, trivial, rfl⟩) ?_)
  refine .op (c := .exists_ w'.ws.path) (d1 := d) (x := true) ⟨⟨rfl, Or.inr (Or.inl ⟨_, hin⟩)⟩, fun _ _ _ _ => rfl⟩ ?_
  refine .op (c := .remove w'.ws.path) (d1 := d) (x := false) ⟨Or.inr ⟨⟨_, hin⟩, Or.inl rfl⟩, fun j ys m' hj hmj _ => ?_⟩ (.ret _ _)
  obtain ⟨rfl, rfl⟩ := below_only hb hj
  exact ⟨fun h => absurd (h hfull.choose) hfull.choose_spec, fun _ => ⟨rfl, rfl⟩⟩

theorem relink_below_empty {w' : OpenWs} {i : UID} {x : Str} {m : Mnt} (hb : E.Below w'.ws.path i [x]) {d : Disk} (hm : d.mnt i.base32 = some m)
    (hu : d.HasDiff m.upper) (hn : m.upper ∉ m.lowers) (hdir : d.ShowsDir i.base32 [x]) (hemp : ∀ y, d.shows i.base32 [y, x] = none) :
    ∃ d', ExecBelow E (relink E w') d (.ok ()) d' := by
  have hin := below_inside hb
  have hv : ∀ r, d.shows i.base32 r = view (d.content m.upper :: m.lowers.map d.content) r := fun r => by simp only [Disk.shows, hm, List.map_cons]
  let c0 := d.content m.upper
  let d1 := d.put m.upper (upd c0 [x] (some .whiteout))
  let d2 := d1.put m.upper (upd c0 [x] (some (.file [])))
  let d3 := d2.put m.upper (upd c0 [x] (some (.file [])))
  have hu1 : d1.HasDiff m.upper := put_hasDiff hu
  have hu2 : d2.HasDiff m.upper := put_hasDiff hu1
  have hm1 : d1.mnt i.base32 = some m := by rw [show d1.mnt = d.mnt from (put_rest _ _ _).2.2.2.1]; exact hm
  have hm2 : d2.mnt i.base32 = some m := by rw [show d2.mnt = d1.mnt from (put_rest _ _ _).2.2.2.1]; exact hm1
  have hl1 : m.lowers.map d1.content = m.lowers.map d.content := List.map_congr_left fun v hv => put_content_ne (by rintro rfl; exact hn hv) _
  have hl2 : m.lowers.map d2.content = m.lowers.map d1.content := List.map_congr_left fun v hv => put_content_ne (by rintro rfl; exact hn hv) _
  have hemp' : ∀ y, view (c0 :: m.lowers.map d.content) [y, x] = none := fun y => by rw [← hv]; exact hemp y
  have s1 : ∀ r, d1.shows i.base32 r = if r = [x] then none else d.shows i.base32 r := fun r => by
    rw [hv, shown_put hm hu hn, view_swap _ _ _ (by simp) hemp']
  have s2 : ∀ r, d2.shows i.base32 r = if r = [x] then some (.file []) else d.shows i.base32 r := fun r => by
    rw [hv, shown_put hm1 hu1 hn, hl1, view_swap _ _ _ (by simp) hemp']
  have s3 : ∀ r, d3.shows i.base32 r = if r = [x] then some (.file []) else d.shows i.base32 r := fun r => by
    rw [hv, shown_put hm2 hu2 hn, hl2, hl1, view_swap _ _ _ (by simp) hemp']
  refine ⟨d3, ?_⟩
  unfold relink
  refine .op (c := .sys .getwd) (x := true) (Or.inl ⟨rfl, trivial, rfl⟩) (.op (c := .sys .chdirRoot) (x := true) (Or.inl ⟨rfl, trivial, rfl⟩) ?_)
  refine .op (c := .exists_ w'.ws.path) (d1 := d) (x := true) ⟨⟨rfl, Or.inr (Or.inl ⟨_, hin⟩)⟩, fun _ _ _ _ => rfl⟩ ?_
  refine .op (c := .remove w'.ws.path) (d1 := d1) (x := true) ⟨Or.inr ⟨⟨_, hin⟩, Or.inr ⟨_, m, _, hin, hm, rfl⟩⟩, fun j ys m' hj hmj _ => ?_⟩ ?_
  · obtain ⟨rfl, rfl⟩ := below_only hb hj
    rw [hm] at hmj; cases hmj
    exact ⟨fun _ => ⟨rfl, _, rfl, s1⟩, fun ⟨y, h⟩ => absurd (hemp y) h⟩
  refine .op (c := .symlink (E.mountPath w'.mount.dir) w'.ws.path) (d1 := d2) (x := true) ⟨Or.inr ⟨⟨_, hin⟩, Or.inr ⟨_, m, _, hin, hm1, rfl⟩⟩, fun j ys m' hj hmj _ _ => ?_⟩ ?_
  · obtain ⟨rfl, rfl⟩ := below_only hb hj
    rw [hm1] at hmj; cases hmj
    refine ⟨rfl, [], _, rfl, fun r => ?_⟩
    show d2.shows _ r = if r = [x] then _ else d1.shows _ r
    rw [s2, s1]; split <;> rfl
  refine .op (c := .lchown w'.ws.path) (d1 := d3) (x := true) ⟨Or.inr ⟨⟨_, hin⟩, Or.inr ⟨_, m, _, hin, hm2, rfl⟩⟩, fun j ys m' hj hmj _ => ?_⟩ ?_
  · obtain ⟨rfl, rfl⟩ := below_only hb hj
    rw [hm2] at hmj; cases hmj
    refine ⟨rfl, [], _, rfl, fun r => ?_⟩
    show d3.shows _ r = if r = [x] then _ else d2.shows _ r
    rw [s3, s2]; split <;> rfl
  exact .op (c := .sys .chdirBack) (x := true) (Or.inl ⟨rfl, trivial, rfl⟩) (.ret _ _)

theorem below_cmd_run {d : Disk} {g : Str → Option TS} (hS : Steady E d g) {P : Str} (hout : E.Outside P) {w : OpenWs} {u p : UID} {T0 : TS}
    (hF : Found E d g P (lit ".") w u p T0) {q : UID} {ls : List UID} (hls : w.tree.abs.Path q ls) (hfit : E.Fits ls.length) (hmt : d.Mounted w)
    (hlink : ∃ m c, d.user P = .link (E.mountPath w.mount.id.base32) ∧ d.mdir w.mount.id.base32 = some m ∧ m.merged = some c)
    {Q : Str} (hQ : Path.abs Q (lit ".") = Q) {xs : List Str} (hb : E.Below Q w.mount.id xs) (hdir : d.ShowsDir w.mount.id.base32 xs.reverse)
    (hone : (∃ x, d.shows w.mount.id.base32 (x :: xs.reverse) ≠ none) ∨ ∃ x, xs = [x])
    {y : OpenWs → M OpenWs} {T : UID → ATree} (hy : ∀ w, Calms (fun _ => False) (y w)) (hdr : Draws (α := Res CErr OpenWs) (y (w.atPath Q)) 2)
    (hwp : wpm E Faults.none (fun _ => True) (y (w.atPath Q)) (fun w' d2 => ∃ u' ls, Prepared E d d2 (w.atPath Q) w' q u' ls (T u')) (fun _ _ => False) d)
    (hused : d.used.length + 2 < 2 ^ 128) :
    ∃ r d', ExecBelow E (getWorkspace E Q (lit ".") >>= fun w => y w >>= fun w' => expand E w' >>= fun _ => removeMount w.mount >>= fun _ => Pure.pure (w, w') : M (OpenWs × OpenWs)) d r d' := by
  have ho := hF.opens
  obtain ⟨md, c, hlk, hmd, hmc⟩ := hlink
  obtain ⟨_, o2⟩ := getWorkspace_below ho hQ hb hdir
  obtain ⟨m, hm⟩ : ∃ m, d.mnt w.mount.id.base32 = some m := Option.ne_none_iff_exists'.1 hmt
  obtain ⟨m1, m2⟩ := mnt_of_found hS hF hm
  have hnot : m.upper ∉ m.lowers := fun h => by
    rw [m1] at h
    obtain ⟨_, n, hn, hpp⟩ := hF.opens.head
    have := anc_shorter (lh := u :: m.lowers) (path_mem_anc m2 u h) (.step hn hpp m2) m2
    simp at this
    omega
  have hcov : ∀ v ∈ m.upper :: m.lowers, ∃ c, d.layer v = some (some c) := by
    intro v hv
    rcases List.mem_cons.1 hv with rfl | hv
    · rw [m1]; obtain ⟨_, n, hn, _⟩ := ho.head; exact ho.stored _ ⟨n, hn⟩
    · exact path_stored ho m2 v hv
  obtain ⟨z, d2, h2⟩ := exec_total (E := E) (f := Faults.none) hdr d hused
  have h2' := execBelow_of_flat (flat_of_calm (hy _)) h2
  have hq := wpm_exec hwp h2
  cases z with
  | err e => exact hq.elim
  | panic => exact hq.elim
  | diverge => exact hq.elim
  | ok w' =>
    obtain ⟨u', ls', hp⟩ := hq
    obtain ⟨hne, hmp⟩ := prepared_mounts hout hF hls hfit hlk hmd hmc hp
    obtain ⟨z, d3, h3⟩ := exec_total (E := E) (f := Faults.none) (mountP_draws w'.mount) d2 (by have := exec_used hdr h2; omega)
    obtain ⟨rfl, hx, r1, r2, ruser⟩ := hmp _ _ h3
    have h3' := execBelow_of_flat (flat_of_calm (mountP_calms w'.mount)) h3
    have hlay : ∀ v, (∃ c, d.layer v = some (some c)) → d3.layer v = d.layer v := fun v ⟨c, hv⟩ => by
      have hvu : v ≠ u' := by rintro rfl; rw [hp.newLayer] at hv; cases hv
      rw [hx.layer v hvu, hp.layer v hvu]
    have hsh : ∀ r, d3.shows w.mount.id.base32 r = d.shows w.mount.id.base32 r := by
      intro r
      simp only [Disk.shows, r2, hm]
      congr 1
      refine List.map_congr_left fun v hv => ?_
      simp only [Disk.content, hlay v (hcov v hv)]
    have hb' : E.Below w'.ws.path w.mount.id xs := by rw [hp.wsPath]; exact hb
    have hm3 : d3.mnt w.mount.id.base32 = some m := by rw [r2]; exact hm
    by_cases hfull : ∃ x, d.shows w.mount.id.base32 (x :: xs.reverse) ≠ none
    · have h4 := relink_below_full hb' hm3 (by simpa only [hsh] using hfull)
      refine ⟨_, _, execBelow_trans o2 (execBelow_trans h2' (execBelow_trans (a := .err .clearPath) (d1 := d3) ?_ (.ret _ _)))⟩
      rw [expand_eq]
      exact execBelow_trans h3' h4
    · obtain ⟨x, rfl⟩ := hone.resolve_left hfull
      have hemp : ∀ y, d.shows w.mount.id.base32 [y, x] = none := fun y => Classical.byContradiction fun e => hfull ⟨y, e⟩
      obtain ⟨d4, h4⟩ := relink_below_empty hb' hm3 (by
        obtain ⟨c, hc⟩ := hcov m.upper List.mem_cons_self
        exact ⟨c, by rw [hlay _ ⟨c, hc⟩]; exact hc⟩) hnot (by obtain ⟨a, ha⟩ := hdir; exact ⟨a, by rw [hsh]; exact ha⟩) (by simpa only [hsh] using hemp)
      have hdirm : w.mount.dir = w.mount.id.base32 := by rw [ho.mount]
      have h5 := execBelow_of_flat (E := E) (removeMount_flat w.mount) (removeMount_goes hdirm d4)
      refine ⟨.ok (w.atPath Q, w'), removed w.mount.id.base32 d4, execBelow_trans o2 (execBelow_trans h2' (execBelow_trans (a := .ok ()) (d1 := d4) ?_ ?_))⟩
      · rw [expand_eq]
        exact execBelow_trans h3' h4
      · have h5' : ExecBelow (α := Res CErr Unit) E (removeMount (w.atPath Q).mount) d4 (.ok ()) (removed w.mount.id.base32 d4) := h5
        exact execBelow_trans h5' (.ret _ _)

/-! ## Violated -/

/-- **C106, violated.** If the directory is known by its real path - because `PWD` is lost, or by `-C "$(realpath w/sub)"` - then `commit` is not refused. The commit is recorded. If the
directory is not empty, the command then fails, and the workspace is left on the layer that is now a commit. If it is empty, the command succeeds; but it has put a link to the new mount
in the place of the directory, in the commit, and removed the old mount, to which the path of the workspace leads: there is no workspace at its path any more. Both kinds of runs exist (the second
is shown to exist for a directory at the top of the workspace). -/
theorem C106_violated_commit {d : Disk} (hd : Reachable E d) {P : Str} (hP : Path.abs P (lit ".") = P) (hout : E.Outside P) {w : OpenWs} (hg : Gets E d P (lit ".") w)
    {u p : UID} (hh : w.ws.HeadAt w.tree u p) {lp : List UID} (hlp : w.tree.abs.Path p lp) (hfit : E.Fits (u :: lp).length) (hmay : MayCommit w u) (hmt : d.Mounted w)
    (hlink : ∃ m c, d.user P = .link (E.mountPath w.mount.id.base32) ∧ d.mdir w.mount.id.base32 = some m ∧ m.merged = some c)
    {Q : Str} (hQ : Path.abs Q (lit ".") = Q) {xs : List Str} (hb : E.Below Q w.mount.id xs) (hdir : d.ShowsDir w.mount.id.base32 xs.reverse) (ci : CommitInfo) :
    (d.used.length + 2 < 2 ^ 128 → ((∃ x, d.shows w.mount.id.base32 (x :: xs.reverse) ≠ none) ∨ ∃ x, xs = [x]) → ∃ r d', ExecBelow E (commitCmd E Q ci) d r d') ∧
    ∀ r d', ExecBelow E (commitCmd E Q ci) d r d' →
      ((∃ x, d.shows w.mount.id.base32 (x :: xs.reverse) ≠ none) → r = .err .clearPath ∧
        ∃ w1 u', ¬ w.tree.abs.Has u' ∧ Stays E d d' P w w1 u p ∧ ComesBack (w.tree.abs.commit w.ws.onBranch u u' ci.date ci.message) w1.tree.abs) ∧
      ((∀ x, d.shows w.mount.id.base32 (x :: xs.reverse) = none) → (∃ x, r = .ok x) ∧ Displaced E d d' P u lp xs.reverse ∧
        ∃ t u', ¬ w.tree.abs.Has u' ∧ d'.loads w.spaceDir = .ok t ∧ ComesBack (w.tree.abs.commit w.ws.onBranch u u' ci.date ci.message) t.abs) := by
  obtain ⟨g, hS⟩ := steady_reachable hd
  obtain ⟨T, hF⟩ := gets_found hS (by rw [hP]; exact hout) hg hh
  have ho := hF.opens
  have hls : w.tree.abs.Path u (u :: lp) := by obtain ⟨_, n, hn, hpp⟩ := hh; exact .step hn hpp hlp
  have hwp := wpm_weaken (commitP_wp (E := E) (w := w.atPath Q) (d := d) (u := u) (p := p) (ci := ci) (show Reach w.tree from opens_reach ho) hh ho.stored (by
      obtain ⟨T, b, _, _, h, _⟩ := ho.tree
      show d.space w.spaceDir ≠ none
      rw [h]; simp)) (fun _ h => h) (fun _ _ h => h) (fun e d' h => show False by
        rcases h with h | h
        · exact h ⟨rfl, rfl, hS.tracked⟩
        · exact h (follows_iff.2 hmay))
  refine ⟨fun hused hone => ?_, fun r d' h => ?_⟩
  · exact below_cmd_run hS hout hF hls hfit hmt hlink hQ hb hdir hone (y := fun w => commitP E w ci) (T := fun u' => w.tree.abs.commit w.ws.onBranch u u' ci.date ci.message)
      (fun w => commitP_calms E w ci) (commitP_draws E _ ci) hwp hused
  · exact below_cmd hS hP hout hF hls hlp hfit hmt hlink hQ hb hdir (y := fun w => commitP E w ci) (T := fun u' => w.tree.abs.commit w.ws.onBranch u u' ci.date ci.message) hwp
      (fun u' hn => shallow_commit (opens_reach ho) (comesBack_shallow hF.back hF.shallow) hn hls (fits_small hfit))
      (fun u' hn => extends_below (extends_commit (S := fun _ => True) trivial hn) hh.2) h

/-- **C106, violated.** So it is with every `checkout` of what there is: if the directory is not empty, it fails after a new working layer has been recorded; if it is empty, it succeeds, and there is no
workspace at its path any more, and the link is in the layer that the workspace had. -/
theorem C106_violated_checkout {d : Disk} (hd : Reachable E d) {P : Str} (hP : Path.abs P (lit ".") = P) (hout : E.Outside P) {w : OpenWs} (hg : Gets E d P (lit ".") w)
    {u p v : UID} (hh : w.ws.HeadAt w.tree u p) {lp : List UID} (hlp : w.tree.abs.Path p lp) {key : Str} {kt : KeyType} (hk : PlainKey key) (hv : Ws.Resolves w.tree.abs w.ws.id p key v kt)
    {ls : List UID} (hls : w.tree.abs.Path v ls) (hfit : E.Fits ls.length) (hmt : d.Mounted w)
    (hlink : ∃ m c, d.user P = .link (E.mountPath w.mount.id.base32) ∧ d.mdir w.mount.id.base32 = some m ∧ m.merged = some c)
    {Q : Str} (hQ : Path.abs Q (lit ".") = Q) {xs : List Str} (hb : E.Below Q w.mount.id xs) (hdir : d.ShowsDir w.mount.id.base32 xs.reverse) :
    (d.used.length + 2 < 2 ^ 128 → ((∃ x, d.shows w.mount.id.base32 (x :: xs.reverse) ≠ none) ∨ ∃ x, xs = [x]) → ∃ r d', ExecBelow E (checkoutCmd E Q key) d r d') ∧
    ∀ r d', ExecBelow E (checkoutCmd E Q key) d r d' →
      ((∃ x, d.shows w.mount.id.base32 (x :: xs.reverse) ≠ none) → r = .err .clearPath ∧
        ∃ w1 u', ¬ w.tree.abs.Has u' ∧ Stays E d d' P w w1 u p ∧ ComesBack (w.tree.abs.add (some v) u' (fun _ => none) (fun _ => none)) w1.tree.abs) ∧
      ((∀ x, d.shows w.mount.id.base32 (x :: xs.reverse) = none) → (∃ x, r = .ok x) ∧ Displaced E d d' P u lp xs.reverse ∧
        ∃ t u', ¬ w.tree.abs.Has u' ∧ d'.loads w.spaceDir = .ok t ∧ ComesBack (w.tree.abs.add (some v) u' (fun _ => none) (fun _ => none)) t.abs) := by
  obtain ⟨g, hS⟩ := steady_reachable hd
  obtain ⟨T, hF⟩ := gets_found hS (by rw [hP]; exact hout) hg hh
  have ho := hF.opens
  have hwp := wpm_weaken (checkoutP_wp (E := E) (w := w.atPath Q) (d := d) (u := u) (p := p) (show Reach w.tree from opens_reach ho) hh ho.stored (by
      obtain ⟨T, b, _, _, h, _⟩ := ho.tree
      show d.space w.spaceDir ≠ none
      rw [h]; simp) hk hv) (fun _ h => h) (fun _ _ h => h) (fun e d' h => show False from h ⟨rfl, rfl, hS.tracked⟩)
  refine ⟨fun hused hone => ?_, fun r d' h => ?_⟩
  · exact below_cmd_run hS hout hF hls hfit hmt hlink hQ hb hdir hone (y := fun w => checkoutP E w key) (T := fun u' => w.tree.abs.add (some v) u' (fun _ => none) (fun _ => none))
      (fun w => checkoutP_calms E w key) (checkoutP_draws E _ key) hwp hused
  · exact below_cmd hS hP hout hF hls hlp hfit hmt hlink hQ hb hdir (y := fun w => checkoutP E w key) (T := fun u' => w.tree.abs.add (some v) u' (fun _ => none) (fun _ => none)) hwp
      (fun u' hn => shallow_add (reach_rooted (opens_reach ho)) (comesBack_shallow hF.back hF.shallow) hn hls (fits_small hfit))
      (fun u' hn => extends_below (extends_add (S := fun _ => True) hn) hh.2) h

end
end Verif
