import Verif.Props.InnerSim
import Verif.Props.Live
import Verif.World.Beside
import Verif.World.Repeat
/-!
# C107: a workspace inside another workspace

The path of a workspace is a symbolic link. A workspace `w` whose path is inside another workspace `W` is, to `W`, one of its files. Commands in
`w` work as anywhere else and change nothing of `W` but that link, and a commit in `W` keeps it. But commits of `W` hold the link of the
moment, and each commit and checkout in `w` removes what that link leads to; and a checkout in `W` of a commit without the link takes
the workspace from its path, with all that was not committed in it.
-/
set_option autoImplicit false
namespace Verif
open M TS Json

/-- The workspace `w` is inside the workspace `W`: its path `p` is the path `P` of `W` followed by the names `xs`, and what `W` shows there is a link
that makes `p` the workspace `w`. -/
structure Nested (E : Env) (lk : Str → Option Str) (d : Disk) (P : Str) (W : OpenWs) (p : Str) (xs : List Str) (w : OpenWs) : Prop where
  absP : Path.abs P (lit ".") = P
  absp : Path.abs p (lit ".") = p
  outP : E.Outside P
  outp : E.Outside p
  path : Path.comps p = Path.comps P ++ xs
  proper : xs ≠ []
  outer : Gets E d P (lit ".") W
  mounted : d.Mounted W
  inner : Gets E (d.seen lk p W.mount.id.base32 xs.reverse) p (lit ".") w
  other : w.mount.id ≠ W.mount.id

/-- The layer that `W` writes to is not among the layers below `w`. -/
def Apart (d : Disk) (W w : OpenWs) : Prop :=
  ∀ M m, d.mnt W.mount.id.base32 = some M → d.mnt w.mount.id.base32 = some m → M.upper ∉ m.lowers

section
variable {E : Env} {f : Faults} {lk : Str → Option Str} {P p : Str} {xs : List Str} {W w : OpenWs} {d d' : Disk}

theorem Nested.ne (h : Nested E lk d P W p xs w) : P ≠ p := by
  rintro rfl
  have := h.path
  exact h.proper (by simpa using this)

theorem Nested.place (h : Nested E lk d P W p xs w) : xs.reverse ≠ [] := by simpa using h.proper

theorem seen_steady {g : Str → Option TS} (h : Steady E d g) (p n : Str) (q : List Str) : Steady E (d.seen lk p n q) g := steady_user h _

theorem seen_reachable (h : Reachable E d) (p n : Str) (q : List Str) : Reachable E (d.seen lk p n q) :=
  reachable_next h (f := Faults.none) rfl (a := .files _) trivial .files

/-- The run by way of the outer workspace starts where the run on a path of its own starts. -/
theorem mir_start {g : Str → Option TS} (hs : Steady E d g) (p : Str) (q : List Str) {n : Str} {m : Mnt} (hm : d.mnt n = some m) : Mir lk p n q m d d (d.seen lk p n q) := by
  have ht : d.HasDiff m.upper := head_stored hs (mnt_head hs hm)
  obtain ⟨_, _, _, hl, _⟩ := hs.mnt _ _ hm
  exact ⟨rfl, rfl, rfl, rfl, rfl, fun _ _ => rfl, ⟨ht, ht⟩, hl, fun r hr => upd_ne _ _ hr, upd_self _ _ _, hm, fun _ _ _ => rfl⟩

/-- Either command in the inner workspace. -/
theorem nested_run (hd : Reachable E d) (hN : Nested E lk d P W p xs w) {x : M (OpenWs × OpenWs)} (hx : (∃ ci, x = commitCmd E p ci) ∨ ∃ key, PlainKey key ∧ x = checkoutCmd E p key) :
    ∃ m, d.mnt W.mount.id.base32 = some m ∧
    (∀ r d', ExecVia (α := Res CErr (OpenWs × OpenWs)) E lk p W.mount.id.base32 xs.reverse x d r d' →
      ∃ e', Exec E Faults.none x (d.seen lk p W.mount.id.base32 xs.reverse) r e' ∧ Mir lk p W.mount.id.base32 xs.reverse m d d' e') ∧
    ((∃ y, xs = [y]) → (∀ t, ∃ data, lk data = some t) → d.used.length + 2 < 2 ^ 128 → ∃ r d', ExecVia (α := Res CErr (OpenWs × OpenWs)) E lk p W.mount.id.base32 xs.reverse x d r d') := by
  obtain ⟨g, hs⟩ := steady_reachable hd
  have hse := seen_steady (lk := lk) hs p W.mount.id.base32 xs.reverse
  obtain ⟨U, Q, T, hF⟩ := found_of_gets hs (by rw [hN.absP]; exact hN.outP) hN.outer
  obtain ⟨u, pu, t, hf⟩ := found_of_gets hse (by rw [hN.absp]; exact hN.outp) hN.inner
  cases hm : d.mnt W.mount.id.base32 with
  | none => exact absurd hm hN.mounted
  | some m =>
    have hM := mir_start (lk := lk) hs p xs.reverse hm
    have hoff := off_of_outside hN.outp
    have hne : w.mount.id.base32 ≠ W.mount.id.base32 := fun e => hN.other (base32_inj e)
    have hpath : w.ws.path = p := by rw [hf.opens.path, hN.absp]
    have hup : m.upper ∉ m.lowers := by
      obtain ⟨e1, e2⟩ := mnt_of_found hs hF hm
      rw [e1]
      intro hmem
      obtain ⟨_, nd, hn, hp⟩ := hF.opens.head
      have := anc_shorter (lh := U :: m.lowers) (path_mem_anc e2 U hmem) (.step hn hp e2) e2
      simp at this
      omega
    have hmid : ∀ {N : OpenWs → UID → Prop} {z : Disk}, Mid E N w.spaceDir w.ws.path (· = w.mount.id.base32) (Hurt Faults.none (d.seen lk p W.mount.id.base32 xs.reverse) w.mount.id.base32)
        (d.seen lk p W.mount.id.base32 xs.reverse) z → z.mnt W.mount.id.base32 = some m := by
      intro N z hz
      rw [(hz.mounts W.mount.id.base32 hF.mdir (Ne.symm hne)).2.2]; exact hm
    refine ⟨m, rfl, ?_⟩
    rcases hx with ⟨ci, rfl⟩ | ⟨key, hk, rfl⟩
    · have hw := commitCmd_wp (f := Faults.none) (ci := ci) hf.opens hf.mdir
      refine ⟨fun r d' he => via_cmd hoff hN.place hM hf.opens hpath hne (fun w => commitP_calms E w ci) (fun w' e' h => (commitP_dir h).2) (fun z hz => hmid hz) rfl hw he, ?_⟩
      rintro ⟨y, rfl⟩ hlk hused
      exact via_cmd_total hoff hup hlk hM hf.opens hpath (fun w => commitP_calms E w ci) (fun w => commitP_draws E w ci) hused (fun w' e' h => (commitP_dir h).2) (fun z hz => hmid hz) rfl hw
    · have hw := checkoutCmd_wp (f := Faults.none) hf.opens hk hf.mdir
      refine ⟨fun r d' he => via_cmd hoff hN.place hM hf.opens hpath hne (fun w => checkoutP_calms E w key) (fun w' e' h => (checkoutP_dir h).2) (fun z hz => hmid hz) rfl hw he, ?_⟩
      rintro ⟨y, rfl⟩ hlk hused
      exact via_cmd_total hoff hup hlk hM hf.opens hpath (fun w => checkoutP_calms E w key) (fun w => checkoutP_draws E w key) hused (fun w' e' h => (checkoutP_dir h).2) (fun z hz => hmid hz) rfl hw

/-- `W2` is the outer workspace `W` after a command in the inner one, which is now `w2`: the same mount, the same workspace, the same files, but for the link. -/
structure Beside (E : Env) (lk : Str → Option Str) (d d' : Disk) (P : Str) (W W2 : OpenWs) (p : Str) (xs : List Str) (w w2 : OpenWs) : Prop where
  nested : Nested E lk d' P W2 p xs w2
  same : SameWs W W2
  mount : W2.mount.id = W.mount.id
  files : ∀ r, r ≠ xs.reverse → d'.lists W2 r = d.lists W r
  head : ∀ U Q, W.ws.HeadAt W.tree U Q → W2.ws.HeadAt W2.tree U Q
  user : ∀ r, r ≠ p → d'.user r = d.user r
  mdir : d'.mdir W.mount.id.base32 = d.mdir W.mount.id.base32
  gone : d'.info w.mount.id.base32 = none ∧ d'.mnt w.mount.id.base32 = none
  history : ∀ v ls, W.tree.abs.Path v ls → W2.tree.abs.Path v ls
  layers : ∀ M, d.mnt W.mount.id.base32 = some M → ∀ v, d.HasDiff v → v ≠ M.upper → d'.content v = d.content v

theorem nested_after {g g' : Str → Option TS} (hs : Steady E d g) (hN : Nested E lk d P W p xs w) {m : Mnt} {e' : Disk}
    (hM : Mir lk p W.mount.id.base32 xs.reverse m d d' e') (hs' : Steady E e' g') (hG : Grew E (d.seen lk p W.mount.id.base32 xs.reverse) g e' g') (hK : Kept g g')
    {w2 : OpenWs} {u2 v u' : UID} {ls : List UID} (ho : Opens E e' p (lit ".") w2 u2 v)
    (hFr : Fresh E (d.seen lk p W.mount.id.base32 xs.reverse) e' w2.mount.id.base32 (· = w.mount.id.base32) u' ls p) : ∃ W2, Beside E lk d d' P W W2 p xs w w2 := by
  have hse := seen_steady (lk := lk) hs p W.mount.id.base32 xs.reverse
  have hPp : Path.abs P (lit ".") ≠ p := by rw [hN.absP]; exact hN.ne
  obtain ⟨U, Q, T, hF⟩ := found_of_gets hs (by rw [hN.absP]; exact hN.outP) hN.outer
  have hFe : Found E (d.seen lk p W.mount.id.base32 xs.reverse) g P (lit ".") W U Q T :=
    ⟨opens_same hF.opens (upd_ne _ _ hPp) rfl rfl fun _ h => h, hF.mdir, hF.tree, hF.shallow, hF.back⟩
  have h1 : W.mount.id.base32 ≠ w2.mount.id.base32 := fun e => hF.mdir (by rw [e]; exact hFr.newMdir)
  have h2 : W.mount.id.base32 ≠ w.mount.id.base32 := fun e => hN.other (base32_inj e).symm
  obtain ⟨k1, k2, k3⟩ := hFr.others _ h1 h2
  obtain ⟨W2, o, e1, e2, e3, e4, e5⟩ := others_open hse hs' hG hK hFe (hFr.user _ hPp) k2
  have hmt : d'.Mounted W2 := by rw [Disk.Mounted, e3, hM.mounted]; simp
  obtain ⟨z1, z2, _⟩ := hFr.gone _ rfl
  refine ⟨W2, ⟨hN.absP, hN.absp, hN.outP, hN.outp, hN.path, hN.proper, gets_of_opens (opens_beside hM hPp o), hmt, ?_, ?_⟩, ⟨e1, e4, e2⟩, e3, fun r hr => ?_, fun U' Q' h => ?_,
    fun r hr => by rw [← hM.user r hr]; exact (hFr.user r hr).trans (upd_ne _ _ hr), by rw [← hM.mdir]; exact k3, ⟨?_, ?_⟩, fun v ls h => extends_path e5 h, fun M hMM v hv hne => ?_⟩
  · rw [e3]; exact gets_of_opens (opens_seen hM hN.absp ho)
  · rw [e3]; exact fun e => h1 (by rw [e])
  · simp only [Disk.lists, e3]
    split
    · rfl
    · rename_i hr'; exact hM.rest r hr hr'
  · obtain ⟨rfl, rfl⟩ := headAt_unique (wf_of_reach (opens_reach hF.opens)) hF.opens.head h
    exact o.head
  · rw [← hM.info]; exact z2
  · rw [← hM.mnt]; exact z1
  · obtain rfl : M = m := by
      have : e'.mnt W.mount.id.base32 = d.mnt W.mount.id.base32 := k1
      rw [hM.mnt, hM.mounted, hMM, Option.some.injEq] at this
      exact this.symm
    rw [← mir_content hM hne]
    refine (content_upd hFr.layer ?_).trans rfl
    rintro rfl
    obtain ⟨c, hc⟩ := hv
    have : d.layer v = none := hFr.newLayer
    rw [hc] at this; cases this

/-- The layers of the inner workspace, and what it shows. -/
theorem nested_files {g : Str → Option TS} (hs : Steady E d g) (hN : Nested E lk d P W p xs w) (hap : Apart d W w) (hm : d.Mounted w) {u pu : UID} (hh : w.ws.HeadAt w.tree u pu) :
    ∃ ls, w.tree.abs.Path pu ls ∧ d.lists w = files ((u :: ls).map d.content) ∧ ∀ M, d.mnt W.mount.id.base32 = some M → M.upper ∉ u :: ls := by
  obtain ⟨T, hF⟩ := gets_found (seen_steady (lk := lk) hs p W.mount.id.base32 xs.reverse) (by rw [hN.absp]; exact hN.outp) hN.inner hh
  cases hx : d.mnt w.mount.id.base32 with
  | none => exact absurd hx hm
  | some m =>
    obtain ⟨e1, e2⟩ := mnt_of_found (seen_steady (lk := lk) hs p W.mount.id.base32 xs.reverse) hF hx
    exact ⟨m.lowers, e2, by rw [lists_mounted hx, e1], fun M hM => by
      rw [List.mem_cons, not_or, ← e1]
      refine ⟨fun e => ?_, hap M m hM hx⟩
      obtain ⟨r, r1, r2, _⟩ := hs.mnt _ _ hM
      obtain ⟨r', r1', r2', _⟩ := hs.mnt _ _ hx
      exact hN.other (base32_inj (hs.heads _ _ _ _ r1' r1 (by rw [← r2, ← r2', e])))⟩

/-- **C107.** A command in a workspace inside another has the result that it would have if the path were one of its own. -/
theorem C107_same (hd : Reachable E d) (hN : Nested E lk d P W p xs w) {x : M (OpenWs × OpenWs)} (hx : (∃ ci, x = commitCmd E p ci) ∨ ∃ key, PlainKey key ∧ x = checkoutCmd E p key)
    {r : Res CErr (OpenWs × OpenWs)} (he : ExecVia (α := Res CErr (OpenWs × OpenWs)) E lk p W.mount.id.base32 xs.reverse x d r d') :
    Reachable E d' ∧ ∃ e', Exec E Faults.none x (d.seen lk p W.mount.id.base32 xs.reverse) r e' ∧ d'.used = e'.used ∧ d'.space = e'.space ∧ d'.info = e'.info ∧ d'.mnt = e'.mnt ∧
      d'.entryAt lk W.mount.id.base32 xs.reverse = e'.user p := by
  obtain ⟨m, hm, h1, _⟩ := nested_run hd hN hx
  obtain ⟨e', h2, h3⟩ := h1 r d' he
  refine ⟨mir_reachable h3 ?_, e', h2, h3.used.symm, h3.space.symm, h3.info.symm, h3.mnt.symm, h3.seen.symm⟩
  have := seen_reachable (lk := lk) hd p W.mount.id.base32 xs.reverse
  rcases hx with ⟨ci, rfl⟩ | ⟨key, _, rfl⟩
  · exact reachable_next this (f := Faults.none) rfl (a := .commit p ci) (by show E.Outside _; rw [hN.absp]; exact hN.outp) (.commit h2)
  · exact reachable_next this (f := Faults.none) rfl (a := .checkout p key) (by show E.Outside _; rw [hN.absp]; exact hN.outp) (.checkout h2)

/-- **C107.** `commit` in the inner workspace: it is made as anywhere else, the inner workspace shows the same files as before, and the outer one is as it was but for
the link. -/
theorem C107_commit (hd : Reachable E d) (hN : Nested E lk d P W p xs w) {u pu : UID} (hh : w.ws.HeadAt w.tree u pu) {ci : CommitInfo} {r : OpenWs × OpenWs}
    (he : ExecVia (α := Res CErr (OpenWs × OpenWs)) E lk p W.mount.id.base32 xs.reverse (commitCmd E p ci) d (.ok r) d') :
    ∃ W2 w2 u2, Beside E lk d d' P W W2 p xs w w2 ∧ SameWs w w2 ∧ w2.ws.HeadAt w2.tree u2 u ∧ CommitEffect w.tree.abs w.ws u u2 ci w2.tree.abs ∧
      (d.Mounted w → Apart d W w → d'.Mounted w2 ∧ d'.lists w2 = d.lists w) := by
  obtain ⟨g, hs⟩ := steady_reachable hd
  have hse := seen_steady (lk := lk) hs p W.mount.id.base32 xs.reverse
  obtain ⟨m, hm, h1, _⟩ := nested_run hd hN (Or.inl ⟨ci, rfl⟩)
  obtain ⟨e', h2, hM⟩ := h1 _ d' he
  obtain ⟨T, hF⟩ := gets_found hse (by rw [hN.absp]; exact hN.outp) hN.inner hh
  obtain ⟨_, _, u2, ls, g', w2, b1, b2, b3, b4, b5, b6, b7, b8, b9, b10, b11, _⟩ := after_commit hse hF h2
  have hp : w.ws.path = p := by rw [hF.opens.path, hN.absp]
  rw [hp] at b11
  obtain ⟨W2, hB⟩ := nested_after hs hN hM b1 b2 b3 b5 b11
  refine ⟨W2, w2, u2, hB, ⟨b6, b8, b7⟩, b5.head, ?_, fun hmt hap => ?_⟩
  · rw [b10]
    obtain ⟨_, n, hn, _⟩ := hh
    exact commitEffect ⟨n, hn⟩ b9
  · obtain ⟨lp, l1, l2, l3⟩ := nested_files hs hN hap hmt hh
    obtain rfl : ls = u :: lp := by
      obtain ⟨_, n, hn, hpp⟩ := hh
      exact Ws.path_unique b4 (.step hn hpp l1)
    have hst := path_stored hF.opens b4
    have hf := lists_fresh b11 hst
    have hmn : d'.mnt w2.mount.id.base32 = some ⟨u2, u :: lp⟩ := by rw [← hM.mnt]; exact b11.mnt
    refine ⟨by rw [Disk.Mounted, hmn]; simp, ?_⟩
    have hu2 : u2 ≠ m.upper := by
      rintro rfl
      obtain ⟨c, hc⟩ := head_stored hs (mnt_head hs hm)
      have : d.layer m.upper = none := b11.newLayer
      rw [hc] at this; cases this
    have h3 := l3 m hm
    rw [l2]
    rw [lists_mounted b11.mnt] at hf
    rw [lists_mounted hmn]
    refine Eq.trans ?_ (hf.trans rfl)
    congr 1
    refine List.map_congr_left fun v hv => (mir_content hM ?_).symm
    rintro rfl
    rcases List.mem_cons.1 hv with e | e
    · exact hu2 e.symm
    · exact h3 e

/-- **C107.** `checkout` in the inner workspace. -/
theorem C107_checkout (hd : Reachable E d) (hN : Nested E lk d P W p xs w) {u pu : UID} (hh : w.ws.HeadAt w.tree u pu) {key : Str} (hk : PlainKey key) {r : OpenWs × OpenWs}
    (he : ExecVia (α := Res CErr (OpenWs × OpenWs)) E lk p W.mount.id.base32 xs.reverse (checkoutCmd E p key) d (.ok r) d') :
    ∃ W2 w2 u2 v kt ls, Ws.Resolves w.tree.abs w.ws.id pu key v kt ∧ Beside E lk d d' P W W2 p xs w w2 ∧ w2.ws.id = w.ws.id ∧ w2.spaceID = w.spaceID ∧
      w2.ws.branch = sanitize (branchAfter key kt) ∧ w2.ws.HeadAt w2.tree u2 v ∧ w.tree.abs.Path v ls ∧
      ((∀ M, d.mnt W.mount.id.base32 = some M → M.upper ∉ ls) → d'.Mounted w2 ∧ d'.lists w2 = files (ls.map d.content)) := by
  obtain ⟨g, hs⟩ := steady_reachable hd
  have hse := seen_steady (lk := lk) hs p W.mount.id.base32 xs.reverse
  obtain ⟨m, hm, h1, _⟩ := nested_run hd hN (Or.inr ⟨key, hk, rfl⟩)
  obtain ⟨e', h2, hM⟩ := h1 _ d' he
  obtain ⟨T, hF⟩ := gets_found hse (by rw [hN.absp]; exact hN.outp) hN.inner hh
  obtain ⟨_, v, kt, u2, ls, g', w2, b0, b1, b2, b3, b4, b5, b6, b7, b8, b9, b10, b11⟩ := after_checkout hse hF h2
  have hp : w.ws.path = p := by rw [hF.opens.path, hN.absp]
  rw [hp] at b11
  obtain ⟨W2, hB⟩ := nested_after hs hN hM b1 b2 b3 b5 b11
  refine ⟨W2, w2, u2, v, kt, ls, b0, hB, b6, b7, b8, b5.head, b4, fun hap => ?_⟩
  have hst := path_stored hF.opens b4
  have hf := lists_fresh b11 hst
  have hmn : d'.mnt w2.mount.id.base32 = some ⟨u2, ls⟩ := by rw [← hM.mnt]; exact b11.mnt
  refine ⟨by rw [Disk.Mounted, hmn]; simp, ?_⟩
  have hu2 : u2 ≠ m.upper := by
    rintro rfl
    obtain ⟨c, hc⟩ := head_stored hs (mnt_head hs hm)
    have : d.layer m.upper = none := b11.newLayer
    rw [hc] at this; cases this
  have h3 := hap m hm
  rw [lists_mounted b11.mnt] at hf
  rw [lists_mounted hmn]
  refine Eq.trans ?_ (hf.trans rfl)
  congr 1
  refine List.map_congr_left fun v hv => (mir_content hM ?_).symm
  rintro rfl
  rcases List.mem_cons.1 hv with e | e
  · exact hu2 e.symm
  · exact h3 e

/-- **C107.** On a working system `commit` in the inner workspace succeeds exactly if it may be made. -/
theorem C107_commit_accepted_iff (hd : Reachable E d) (hN : Nested E lk d P W p xs w) {u pu : UID} (hh : w.ws.HeadAt w.tree u pu) {ls : List UID} (hls : w.tree.abs.Path u ls)
    (hfit : E.Fits ls.length) (hlink : ∃ n m c, d.entryAt lk W.mount.id.base32 xs.reverse = .link (E.mountPath n) ∧ d.mdir n = some m ∧ m.merged = some c)
    {ci : CommitInfo} {r : Res CErr (OpenWs × OpenWs)} (he : ExecVia (α := Res CErr (OpenWs × OpenWs)) E lk p W.mount.id.base32 xs.reverse (commitCmd E p ci) d r d') :
    (∃ x, r = .ok x) ↔ MayCommit w u := by
  obtain ⟨g, hs⟩ := steady_reachable hd
  have hse := seen_steady (lk := lk) hs p W.mount.id.base32 xs.reverse
  obtain ⟨_, e', h2, _⟩ := C107_same hd hN (Or.inl ⟨ci, rfl⟩) he
  obtain ⟨T, hF⟩ := gets_found hse (by rw [hN.absp]; exact hN.outp) hN.inner hh
  have hp : w.ws.path = p := by rw [hF.opens.path, hN.absp]
  exact accepted_of_steady hse (by rw [hN.absp]; exact hN.outp) hN.inner hh hls hfit (by
    obtain ⟨n, m, c, l1, l2⟩ := hlink
    exact ⟨n, m, c, by rw [hp]; exact (upd_self _ _ _).trans l1, l2⟩) h2

/-- **C107.** And `checkout`, exactly if the key resolves. -/
theorem C107_checkout_accepted_iff (hd : Reachable E d) (hN : Nested E lk d P W p xs w) {u pu : UID} (hh : w.ws.HeadAt w.tree u pu) {key : Str} (hk : PlainKey key)
    (hfit : ∀ v kt ls, Ws.Resolves w.tree.abs w.ws.id pu key v kt → w.tree.abs.Path v ls → E.Fits ls.length)
    (hlink : ∃ n m c, d.entryAt lk W.mount.id.base32 xs.reverse = .link (E.mountPath n) ∧ d.mdir n = some m ∧ m.merged = some c)
    {r : Res CErr (OpenWs × OpenWs)} (he : ExecVia (α := Res CErr (OpenWs × OpenWs)) E lk p W.mount.id.base32 xs.reverse (checkoutCmd E p key) d r d') :
    (∃ x, r = .ok x) ↔ ∃ v kt, Ws.Resolves w.tree.abs w.ws.id pu key v kt := by
  obtain ⟨g, hs⟩ := steady_reachable hd
  have hse := seen_steady (lk := lk) hs p W.mount.id.base32 xs.reverse
  obtain ⟨_, e', h2, _⟩ := C107_same hd hN (Or.inr ⟨key, hk, rfl⟩) he
  obtain ⟨T, hF⟩ := gets_found hse (by rw [hN.absp]; exact hN.outp) hN.inner hh
  have hp : w.ws.path = p := by rw [hF.opens.path, hN.absp]
  exact C61_checkout_accepted_iff (seen_reachable hd p W.mount.id.base32 xs.reverse) hk (by rw [hN.absp]; exact hN.outp) hN.inner hh hfit (by
    obtain ⟨n, m, c, l1, l2⟩ := hlink
    exact ⟨n, m, c, by rw [hp]; exact (upd_self _ _ _).trans l1, l2⟩) h2

/-- **C107.** And the commands come to an end, if the inner workspace is at the top of the outer one. -/
theorem C107_runs (hd : Reachable E d) {y : Str} (hN : Nested E lk d P W p [y] w) (hlk : ∀ t, ∃ data, lk data = some t) (hused : d.used.length + 2 < 2 ^ 128) {x : M (OpenWs × OpenWs)}
    (hx : (∃ ci, x = commitCmd E p ci) ∨ ∃ key, PlainKey key ∧ x = checkoutCmd E p key) :
    ∃ r d', ExecVia (α := Res CErr (OpenWs × OpenWs)) E lk p W.mount.id.base32 [y] x d r d' := by
  obtain ⟨_, _, _, h⟩ := nested_run hd hN hx
  exact h ⟨y, rfl⟩ hlk hused

/-! ## Commands in the outer workspace -/

/-- What the outer workspace shows at the inner one is a link. -/
theorem nested_link {g : Str → Option TS} (hs : Steady E d g) (hN : Nested E lk d P W p xs w) :
    ∃ data t, d.lists W xs.reverse = some (.file data) ∧ lk data = some t ∧ mountIDOf E.root p (lit ".") (some t) = .ok w.mount.id := by
  obtain ⟨u, pu, T, hF⟩ := found_of_gets (seen_steady (lk := lk) hs p W.mount.id.base32 xs.reverse) (by rw [hN.absp]; exact hN.outp) hN.inner
  obtain ⟨t, h1, h2⟩ := hF.opens.link
  rw [hN.absp] at h1
  have h1 : d.entryAt lk W.mount.id.base32 xs.reverse = .link t := by rw [← h1]; exact (upd_self _ _ _).symm
  unfold Disk.entryAt at h1
  split at h1
  · rename_i data hd
    split at h1
    · rename_i t' ht
      cases h1
      exact ⟨data, t, by rw [Disk.lists, if_neg hN.place]; exact hd, ht, h2⟩
    · cases h1
  · split at h1 <;> cases h1
  · split at h1 <;> cases h1

theorem entry_of_lists {w1 : OpenWs} {q : List Str} (hq : q ≠ []) {data t : Str} (h : d.lists w1 q = some (.file data)) (ht : lk data = some t) :
    d.entryAt lk w1.mount.id.base32 q = .link t := by
  rw [Disk.lists, if_neg hq] at h
  simp only [Disk.entryAt, h, ht]

theorem outer_keeps {g g' : Str → Option TS} (hs : Steady E d g) (hN : Nested E lk d P W p xs w) (hs' : Steady E d' g') (hG : Grew E d g d' g') (hK : Kept g g') {W2 : OpenWs}
    {U2 V u' : UID} {ls : List UID} (ho : Opens E d' P (lit ".") W2 U2 V) (hFr : Fresh E d d' W2.mount.id.base32 (· = W.mount.id.base32) u' ls P)
    (hq : d'.lists W2 xs.reverse = d.lists W xs.reverse) :
    ∃ w2, Nested E lk d' P W2 p xs w2 ∧ SameWs w w2 ∧ w2.mount.id = w.mount.id ∧ d'.mnt w2.mount.id.base32 = d.mnt w.mount.id.base32 ∧ (d.Mounted w → d'.lists w2 = d.lists w) := by
  have hse := seen_steady (lk := lk) hs p W.mount.id.base32 xs.reverse
  obtain ⟨u, pu, T, hF⟩ := found_of_gets hse (by rw [hN.absp]; exact hN.outp) hN.inner
  obtain ⟨data, t, l1, l2, l3⟩ := nested_link hs hN
  have hue : (d'.seen lk p W2.mount.id.base32 xs.reverse).user p = (d.seen lk p W.mount.id.base32 xs.reverse).user p := by
    refine (upd_self _ _ _).trans (Eq.trans ?_ (upd_self _ _ _).symm)
    rw [entry_of_lists hN.place l1 l2, entry_of_lists hN.place (hq.trans l1) l2]
  have h1 : w.mount.id.base32 ≠ W2.mount.id.base32 := fun e => hF.mdir (by rw [e]; exact hFr.newMdir)
  have h2 : w.mount.id.base32 ≠ W.mount.id.base32 := fun e => hN.other (base32_inj e)
  obtain ⟨k1, k2, _⟩ := hFr.others _ h1 h2
  obtain ⟨w2, o, e1, e2, e3, e4, _⟩ := others_open hse (seen_steady (lk := lk) hs' p W2.mount.id.base32 xs.reverse) ⟨hG.1, hG.2, hG.3, hG.4⟩ hK hF (by rw [hN.absp]; exact hue) k2
  refine ⟨w2, ⟨hN.absP, hN.absp, hN.outP, hN.outp, hN.path, hN.proper, gets_of_opens ho, by rw [Disk.Mounted, hFr.mnt]; simp, gets_of_opens o, ?_⟩, ⟨e1, e4, e2⟩, e3, by rw [e3, k1], fun hmt => ?_⟩
  · rw [e3]; exact fun e => h1 (by rw [e])
  · cases hx : d.mnt w.mount.id.base32 with
    | none => exact absurd hx hmt
    | some m =>
      obtain ⟨_, _, _, hl, _⟩ := hs.mnt _ _ hx
      rw [lists_mounted hx, lists_mounted (w := w2) (by rw [e3, k1]; exact hx)]
      congr 1
      refine List.map_congr_left fun v hv => content_upd hFr.layer ?_
      rintro rfl
      have : d.HasDiff v := by
        rcases List.mem_cons.1 hv with rfl | hv
        · exact head_stored hs (mnt_head hs hx)
        · exact hl v hv
      obtain ⟨c, hc⟩ := this
      rw [hFr.newLayer] at hc; cases hc

/-- **C107.** `commit` in the outer workspace keeps the inner one: it is at the same path, with the same mount and the same files. -/
theorem C107_outer_commit (hd : Reachable E d) (hN : Nested E lk d P W p xs w) {ci : CommitInfo} {r : OpenWs × OpenWs} (he : Exec E f (commitCmd E P ci) d (.ok r) d') :
    ∃ W2 w2, Nested E lk d' P W2 p xs w2 ∧ SameWs W W2 ∧ SameWs w w2 ∧ w2.mount.id = w.mount.id ∧ d'.mnt w2.mount.id.base32 = d.mnt w.mount.id.base32 ∧
      d'.lists W2 = d.lists W ∧ (d.Mounted w → d'.lists w2 = d.lists w) := by
  obtain ⟨g, hs⟩ := steady_reachable hd
  have hout : E.Outside (Path.abs P (lit ".")) := by rw [hN.absP]; exact hN.outP
  obtain ⟨U, Q, T, hF⟩ := found_of_gets hs hout hN.outer
  obtain ⟨_, _, u2, ls, g', W2, b1, b2, b3, b4, b5, b6, b7, b8, _, _, b11, _⟩ := after_commit hs hF he
  rw [hF.opens.path, hN.absP] at b11
  obtain ⟨W3, k1, _, k3, _⟩ := C27_commit_keeps_files hd hout hN.outer hN.mounted hF.opens.head he
  obtain rfl : W3 = W2 := (wpm_exec_ok (getWorkspace_wp b5) k1).1
  obtain ⟨w2, a1, a2, a3, a4, a5⟩ := outer_keeps hs hN b1 b2 b3 b5 b11 (by rw [k3])
  exact ⟨W3, w2, a1, ⟨b6, b8, b7⟩, a2, a3, a4, k3, a5⟩

/-- **C107.** So does `checkout` in the outer workspace of a commit that has the same link at that place. -/
theorem C107_outer_checkout_partial (hd : Reachable E d) (hN : Nested E lk d P W p xs w) {U Q v : UID} (hh : W.ws.HeadAt W.tree U Q) {key : Str} {kt : KeyType}
    (hv : Ws.Resolves W.tree.abs W.ws.id Q key v kt) {ls : List UID} (hls : W.tree.abs.Path v ls) (hq : files (ls.map d.content) xs.reverse = d.lists W xs.reverse)
    {r : OpenWs × OpenWs} (he : Exec E f (checkoutCmd E P key) d (.ok r) d') :
    ∃ W2 w2, Nested E lk d' P W2 p xs w2 ∧ W2.ws.id = W.ws.id ∧ SameWs w w2 ∧ w2.mount.id = w.mount.id ∧ d'.mnt w2.mount.id.base32 = d.mnt w.mount.id.base32 ∧
      d'.lists W2 = files (ls.map d.content) ∧ (d.Mounted w → d'.lists w2 = d.lists w) := by
  obtain ⟨g, hs⟩ := steady_reachable hd
  have hout : E.Outside (Path.abs P (lit ".")) := by rw [hN.absP]; exact hN.outP
  obtain ⟨T, hF⟩ := gets_found hs hout hN.outer hh
  obtain ⟨_, v', kt', u2, ls', g', W2, b0, b1, b2, b3, b4, b5, b6, b7, b8, _, _, b11⟩ := after_checkout hs hF he
  obtain ⟨rfl, rfl⟩ := Ws.resolves_unique b0 hv
  obtain rfl := Ws.path_unique b4 hls
  rw [hF.opens.path, hN.absP] at b11
  have hl := lists_fresh b11 (path_stored hF.opens b4)
  obtain ⟨w2, a1, a2, a3, a4, a5⟩ := outer_keeps hs hN b1 b2 b3 b5 b11 (by rw [hl, hq])
  exact ⟨W2, w2, a1, b6, a2, a3, a4, hl, a5⟩

/-- **Violation.** `checkout` in the outer workspace of a commit without that link succeeds, though it takes the inner workspace from its path: whatever is at the path then is not
that workspace. Its record, its mount and its layer are still there, and with them what was not committed; but the path does not lead to them any more. -/
theorem C107_violated_checkout (hd : Reachable E d) (hN : Nested E lk d P W p xs w) {U Q v : UID} (hh : W.ws.HeadAt W.tree U Q) {key : Str} {kt : KeyType}
    (hv : Ws.Resolves W.tree.abs W.ws.id Q key v kt) {ls : List UID} (hls : W.tree.abs.Path v ls)
    (hq : ∀ data t, files (ls.map d.content) xs.reverse = some (.file data) → lk data = some t → mountIDOf E.root p (lit ".") (some t) ≠ .ok w.mount.id)
    {r : OpenWs × OpenWs} (he : Exec E f (checkoutCmd E P key) d (.ok r) d') :
    ∃ W2, Gets E d' P (lit ".") W2 ∧ d'.Mounted W2 ∧ d'.lists W2 = files (ls.map d.content) ∧
      (∀ w2, Gets E (d'.seen lk p W2.mount.id.base32 xs.reverse) p (lit ".") w2 → w2.mount.id ≠ w.mount.id) ∧
      d'.info w.mount.id.base32 = d.info w.mount.id.base32 ∧ d'.mnt w.mount.id.base32 = d.mnt w.mount.id.base32 := by
  obtain ⟨g, hs⟩ := steady_reachable hd
  have hout : E.Outside (Path.abs P (lit ".")) := by rw [hN.absP]; exact hN.outP
  obtain ⟨T, hF⟩ := gets_found hs hout hN.outer hh
  obtain ⟨u, pu, T2, hf⟩ := found_of_gets (seen_steady (lk := lk) hs p W.mount.id.base32 xs.reverse) (by rw [hN.absp]; exact hN.outp) hN.inner
  obtain ⟨_, v', kt', u2, ls', g', W2, b0, b1, b2, b3, b4, b5, b6, b7, b8, _, _, b11⟩ := after_checkout hs hF he
  obtain ⟨rfl, rfl⟩ := Ws.resolves_unique b0 hv
  obtain rfl := Ws.path_unique b4 hls
  rw [hF.opens.path, hN.absP] at b11
  have hl := lists_fresh b11 (path_stored hF.opens b4)
  have h1 : w.mount.id.base32 ≠ W2.mount.id.base32 := fun e => hf.mdir (by rw [e]; exact b11.newMdir)
  have h2 : w.mount.id.base32 ≠ W.mount.id.base32 := fun e => hN.other (base32_inj e)
  obtain ⟨k1, k2, _⟩ := b11.others _ h1 h2
  have hmt : d'.Mounted W2 := by rw [Disk.Mounted, b11.mnt]; simp
  refine ⟨W2, gets_of_opens b5, hmt, hl, fun w2 hg hm => ?_, k2, k1⟩
  have hN2 : Nested E lk d' P W2 p xs w2 :=
    ⟨hN.absP, hN.absp, hN.outP, hN.outp, hN.path, hN.proper, gets_of_opens b5, hmt, hg, fun e => h1 (by rw [← hm, e])⟩
  obtain ⟨data, t, l1, l2, l3⟩ := nested_link b1 hN2
  exact hq data t (by rw [← hl]; exact l1) l2 (by rw [← hm]; exact l3)

theorem execVia_used {α : Type} {x : Prog α} {q : List Str} {n : Str} {a : α} (h : ExecVia E lk p n q x d a d') {u : UID} (hu : u ∈ d.used) : u ∈ d'.used := by
  induction h with
  | ret => exact hu
  | @op c k d d1 d2 x a hs _ ih =>
    refine ih ?_
    by_cases hc : c.On p
    · obtain ⟨e, _, m, y, _, h2, _⟩ := hs.1 hc
      rw [h2, (put_eqs d m.upper y).1]; exact hu
    · rw [step_draw (hs.2 hc)]; exact List.mem_append_right _ hu

/-- **Violation.** The link that a commit of the outer workspace holds is useless after the next commit in the inner one: the record it leads to is removed then. `commit` in the outer
workspace, `commit` in the inner one, and `checkout` of the first of these in the outer one all succeed, and after that the path is no workspace. -/
theorem C107_violated_stale {d1 d2 d3 : Disk} (hd : Reachable E d) (hN : Nested E lk d P W p xs w) {U Q : UID} (hh : W.ws.HeadAt W.tree U Q) {ci ci2 : CommitInfo} {r1 r2 r3 : OpenWs × OpenWs}
    (he1 : Exec E Faults.none (commitCmd E P ci) d (.ok r1) d1) {W1 : OpenWs} (hg1 : Gets E d1 P (lit ".") W1)
    (he2 : ExecVia (α := Res CErr (OpenWs × OpenWs)) E lk p W1.mount.id.base32 xs.reverse (commitCmd E p ci2) d1 (.ok r2) d2) {W2 : OpenWs} (hg2 : Gets E d2 P (lit ".") W2)
    {U2 Q2 : UID} (hh2 : W2.ws.HeadAt W2.tree U2 Q2) {key : Str} {kt : KeyType} (hv : Ws.Resolves W2.tree.abs W2.ws.id Q2 key U kt)
    (he3 : Exec E Faults.none (checkoutCmd E P key) d2 (.ok r3) d3) :
    ∃ W3, Gets E d3 P (lit ".") W3 ∧ d3.Mounted W3 ∧ d3.lists W3 = d.lists W ∧ ∀ w3, ¬ Gets E (d3.seen lk p W3.mount.id.base32 xs.reverse) p (lit ".") w3 := by
  obtain ⟨g, hs⟩ := steady_reachable hd
  have hout : E.Outside (Path.abs P (lit ".")) := by rw [hN.absP]; exact hN.outP
  obtain ⟨data, t, l1, l2, l3⟩ := nested_link hs hN
  obtain ⟨T, hF⟩ := gets_found hs hout hN.outer hh
  -- the commit in the outer workspace
  have hd1 : Reachable E d1 := reachable_next hd (f := Faults.none) rfl (a := .commit P ci) hout (.commit he1)
  obtain ⟨g1, hs1⟩ := steady_reachable hd1
  obtain ⟨W1', w1, n1, s1, s2, s3, s4, s5, s6⟩ := C107_outer_commit hd hN he1
  obtain rfl := gets_one hout n1.outer hg1
  obtain ⟨W1, k1, k2, k3, ls, k4, k5⟩ := C27_commit_keeps_files hd hout hN.outer hN.mounted hh he1
  obtain rfl := gets_one hout k1 n1.outer
  obtain ⟨_, _, u1, ls', g1', W1', a1, a2, a3, a4, a5, a6, a7, a8, a9, a10, a11, _⟩ := after_commit hs hF he1
  obtain rfl := gets_one hout (gets_of_opens a5) k1
  have hls' : W1'.tree.abs.Path U ls' := by
    obtain ⟨T1, hF1⟩ := gets_found hs1 hout k1 a5.head
    exact (mnt_of_found hs1 hF1 a11.mnt).2
  obtain rfl := Ws.path_unique hls' k4
  -- the commit in the inner workspace
  obtain ⟨_, _, _, hf1⟩ := found_of_gets (seen_steady (lk := lk) hs1 p W1'.mount.id.base32 xs.reverse) (by rw [n1.absp]; exact n1.outp) n1.inner
  obtain ⟨W2', w2, u2, B, _⟩ := C107_commit hd1 n1 hf1.opens.head he2
  obtain rfl := gets_one hout B.nested.outer hg2
  have hd2 := (C107_same hd1 n1 (Or.inl ⟨ci2, rfl⟩) he2).1
  obtain ⟨g2, hs2⟩ := steady_reachable hd2
  have hused : w1.mount.id ∈ d2.used := by
    refine execVia_used he2 ?_
    obtain ⟨x, hx, e⟩ := hs1.tracked.mdir _ hf1.mdir
    rw [base32_inj e]; exact hx
  have hcont : ls'.map d2.content = ls'.map d1.content := by
    refine List.map_congr_left fun v hv => B.layers _ a11.mnt v (path_stored a5 k4 v hv) ?_
    rintro rfl
    obtain ⟨c, hc⟩ := path_stored hF.opens a4 _ hv
    rw [a11.newLayer] at hc; cases hc
  -- the checkout in the outer workspace
  obtain ⟨T2, hF2⟩ := gets_found hs2 hout hg2 hh2
  obtain ⟨_, v', kt', u3, ls3, g3, W3, b0, b1, b2, b3, b4, b5, b6, b7, b8, _, _, b11⟩ := after_checkout hs2 hF2 he3
  obtain ⟨rfl, rfl⟩ := Ws.resolves_unique b0 hv
  obtain rfl := Ws.path_unique b4 (B.history _ _ k4)
  have hl := lists_fresh b11 (path_stored hF2.opens b4)
  have hmt : d3.Mounted W3 := by rw [Disk.Mounted, b11.mnt]; simp
  have hl3 : d3.lists W3 = d.lists W := by rw [hl, hcont, k5]
  have hgone : d3.info w.mount.id.base32 = none := by
    obtain ⟨_, _, _, _, _, d4, _, _, _, hnew, hL, rfl⟩ := wpm_exec (checkoutCmd_wp (f := Faults.none) hF2.opens (plain_of_checkout he3) hF2.mdir) he3
    have h1 : w.mount.id.base32 ≠ r3.2.mount.id.base32 := fun e => hnew ⟨rfl, rfl, hs2.tracked⟩ (by rw [← base32_inj e, ← s3]; exact hused)
    have h2 : d4.info w.mount.id.base32 = none := by rw [hL.info, upd_ne _ _ h1, ← s3]; exact B.gone.1
    simp only [removed, Disk.setInfo, Disk.setMdir, Disk.setMnt, upd]
    split
    · rfl
    · exact h2
  refine ⟨W3, gets_of_opens b5, hmt, hl3, fun w3 => gone (d := d3.seen lk p W3.mount.id.base32 xs.reverse) hN.absp (off_of_outside hN.outp) (t := t) ?_ l3 hgone w3⟩
  exact (upd_self _ _ _).trans (entry_of_lists hN.place (by rw [hl3]; exact l1) l2)

end
end Verif
