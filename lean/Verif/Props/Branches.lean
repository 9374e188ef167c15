import Verif.Props.Moves
import Verif.World.Invariant
/-!
# Branches and tags of all histories (C21, C29, C30, C46, C60)
-/
set_option autoImplicit false
namespace Verif
open M TS Json

/-! ## C60 -/

theorem owned_edits {U : UID → Prop} {a a' : ATree} {w : Ws} {p : UID} {es : List Edit} (hw : U w.id) (h : EditsAll w p es a a') (ho : Owned U a) : Owned U a' := by
  induction h with
  | nil => exact ho
  | cons h1 _ ih =>
    refine ih fun b v hb => ?_
    have del : ∀ {a : ATree} {x : Str}, (a.delBranch x).branch b = some v → a.branch b = some v := by
      intro a x hb
      simp only [ATree.delBranch, upd] at hb
      split at hb
      · cases hb
      · exact hb
    cases h1 with
    | addBranch =>
      simp only [ATree.setBranch, upd] at hb
      split at hb
      · rename_i e; exact ⟨w.id, _, hw, e⟩
      · exact ho b v hb
    | deleteOwn => exact ho b v (del hb)
    | deleteGlobal => exact ho b v (del hb)
    | addTag => exact ho b v hb
    | deleteTag => exact ho b v hb

theorem keeps_owned : Keeps (fun _ => True) Owned where
  mono := owned_mono
  back := owned_back
  init _ hi _ b v hb := by
    simp only [ATree.initial, ATree.setBranch, upd] at hb
    split at hb
    · rename_i e; exact ⟨_, _, hi, e⟩
    · cases hb
  turn _ ho ht := by
    cases ht with
    | clone => exact ho
    | checkout => exact ho
    | @commit _ _ _ w u u' hw _ _ _ =>
      intro b v hb
      unfold Ws.onBranch at hb
      split at hb
      · exact ho b v hb
      · simp only [ATree.commit, ATree.setBranch, upd] at hb
        split at hb
        · rename_i e; exact ⟨w.id, _, hw, e⟩
        · exact ho b v hb
    | edit _ hw _ he => exact owned_edits hw he ho

section
variable {E : Env} {f : Faults}

theorem reachable_owned {d : Disk} (hd : Reachable E d) : AllTrees Owned d := by
  obtain ⟨f, d0, hio, h0, hp⟩ := hd
  obtain ⟨⟨g0, hg0⟩, hi, ho⟩ := legacy_sound h0
  exact (allTrees_from keeps_owned hio hg0 hi ho (pastOf_of_past hp)).2

theorem gets_owned {d : Disk} (hd : Reachable E d) {cwd path : Str} (hout : E.Outside (Path.abs cwd path)) {w : OpenWs} (hg : Gets E d cwd path w) :
    Owned (· ∈ d.used) w.tree.abs := by
  obtain ⟨g, hs⟩ := steady_reachable hd
  obtain ⟨u, p, T, hF⟩ := found_of_gets hs hout hg
  obtain ⟨_, b, _, _, h1, h2⟩ := hF.opens.tree
  exact reachable_owned hd _ b w.tree h1 h2

theorem own_inj {i j : UID} {x y : Str} (h : i.base32 ++ lit "/" ++ x = j.base32 ++ lit "/" ++ y) : i = j ∧ x = y := by
  have hl : (i.base32 ++ lit "/").length = (j.base32 ++ lit "/").length := by simp [C02_base32_length]
  obtain ⟨h1, h2⟩ := List.append_inj h hl
  refine ⟨C03_base32_injective ?_, h2⟩
  exact (List.append_inj h1 (by simp [C02_base32_length])).1

theorem own_ne_global {i : UID} {x y : Str} : i.base32 ++ lit "/" ++ x ≠ lit "global/" ++ y := by
  intro h
  have h1 : (i.base32 ++ lit "/" ++ x)[6]? = (lit "global/" ++ y)[6]? := by rw [h]
  have hl := C02_base32_length i
  rw [List.append_assoc, List.getElem?_append_left (by rw [hl]; decide), List.getElem?_append_left (by decide)] at h1
  have hm : (0x2F : UInt8) ∈ i.base32 := List.mem_of_getElem? (h1.trans (by decide))
  have := ((C05_base32_decode_iff i.base32 i).1 (C02_base32_roundtrip i)).2.1 _ hm
  revert this
  decide

/-- **C60.** Whatever commands run, no space ever has a global branch: every branch belongs to a workspace whose ID the program
has drawn. -/
theorem C60_no_global_branch {d : Disk} (hd : Reachable E d) {cwd path : Str} (hout : E.Outside (Path.abs cwd path)) {w : OpenWs} (hg : Gets E d cwd path w)
    (name : Str) : w.tree.abs.branch (lit "global/" ++ name) = none := by
  cases h : w.tree.abs.branch (lit "global/" ++ name) with
  | none => rfl
  | some v =>
    obtain ⟨i, x, _, h2⟩ := gets_owned hd hout hg _ v h
    exact absurd h2.symm own_ne_global

theorem own_ne_origin {i : UID} {x y : Str} : i.base32 ++ lit "/" ++ x ≠ lit "origin/" ++ y := by
  intro h
  have h1 : (i.base32 ++ lit "/" ++ x)[6]? = (lit "origin/" ++ y)[6]? := by rw [h]
  have hl := C02_base32_length i
  rw [List.append_assoc, List.getElem?_append_left (by rw [hl]; decide), List.getElem?_append_left (by decide)] at h1
  have hm : (0x2F : UInt8) ∈ i.base32 := List.mem_of_getElem? (h1.trans (by decide))
  have := ((C05_base32_decode_iff i.base32 i).1 (C02_base32_roundtrip i)).2.1 _ hm
  revert this
  decide

theorem origin_spells {name : Str} {v : UID} : ¬ Spells (lit "origin/" ++ name) v := by
  have hm : (0x2F : UInt8) ∈ lit "origin/" ++ name := List.mem_append_left _ (by decide)
  rintro (⟨_, h, _⟩ | ⟨_, h, _⟩)
  · have := h _ hm; revert this; decide
  · have := h _ hm; revert this; decide

/-- **C60.** A reference `origin/name` means a tag or a branch of the workspace itself that has been given exactly this name, and
otherwise nothing: it never leads to a branch that workspaces share. -/
theorem C60_origin {d : Disk} (hd : Reachable E d) {cwd path : Str} (hout : E.Outside (Path.abs cwd path)) {w : OpenWs} (hg : Gets E d cwd path w) (p : UID)
    (name : Str) (v : UID) (k : KeyType) :
    Ws.Resolves w.tree.abs w.ws.id p (lit "origin/" ++ name) v k ↔
      w.tree.abs.tag (lit "origin/" ++ name) = some v ∧ k = .tag ∨
      w.tree.abs.tag (lit "origin/" ++ name) = none ∧ w.tree.abs.branch (w.ws.id.base32 ++ lit "/" ++ (lit "origin/" ++ name)) = some v ∧ k = .branch := by
  have hnb : w.tree.abs.branch (lit "origin/" ++ name) = none := by
    cases h : w.tree.abs.branch (lit "origin/" ++ name) with
    | none => rfl
    | some v =>
      obtain ⟨i, x, _, h2⟩ := gets_owned hd hout hg _ v h
      exact absurd h2.symm own_ne_origin
  have hne : lit "origin/" ++ name ≠ lit "HEAD" := by
    intro e
    have h1 : (lit "origin/" ++ name)[0]? = (lit "HEAD")[0]? := by rw [e]
    rw [List.getElem?_append_left (by decide)] at h1
    revert h1; decide
  constructor
  · intro h
    generalize he : lit "origin/" ++ name = ref at h
    cases h with
    | head => exact absurd he hne
    | id _ h1 _ => exact absurd (he ▸ h1) origin_spells
    | tag _ _ h1 => exact Or.inl ⟨h1, rfl⟩
    | full _ _ _ h1 => rw [← he, hnb] at h1; cases h1
    | own _ _ h1 _ h2 => exact Or.inr ⟨h1, h2, rfl⟩
    | global _ _ _ _ _ _ h1 => rw [C60_no_global_branch hd hout hg] at h1; cases h1
  · rintro (⟨h1, rfl⟩ | ⟨h1, h2, rfl⟩)
    · exact .tag hne (fun _ hs => absurd hs origin_spells) h1
    · exact .own hne (fun _ hs => absurd hs origin_spells) h1 hnb h2

/-- **C60.** The listing of remote branches is always empty. -/
theorem C60_no_remote_branches {d : Disk} (hd : Reachable E d) {cwd path : Str} (hout : E.Outside (Path.abs cwd path)) {w : OpenWs} (hg : Gets E d cwd path w)
    {out : List HBranch} (h : Ws.RemoteBranches w.tree out) : out = [] := by
  obtain ⟨g, hs⟩ := steady_reachable hd
  obtain ⟨u, p, T, hF⟩ := found_of_gets hs hout hg
  have hn := gets_owned hd hout hg
  have hL := (((Ws.C21_remote_branches_partial (wf_of_reach (opens_reach hF.opens)) (fun b v hb => by
    obtain ⟨i, x, _, h2⟩ := hn b v hb; exact ⟨⟨some i, x⟩, h2⟩)).2 out h)).1
  cases out with
  | nil => rfl
  | cons x out =>
    obtain ⟨v, hv⟩ := hL.head x (by simp)
    obtain ⟨⟨h1, _⟩, h2⟩ := (hL.exact x.info v).1 ⟨x, by simp, rfl, hv⟩
    rw [BranchInfo.fullName, h1] at h2
    rw [C60_no_global_branch hd hout hg] at h2
    cases h2

/-! ## C21 -/

/-- **C21.** The names that the listings of branches rely on are what every history leaves. -/
theorem C21_reachable_names {d : Disk} (hd : Reachable E d) {cwd path : Str} (hout : E.Outside (Path.abs cwd path)) {w : OpenWs} (hg : Gets E d cwd path w) :
    w.tree.abs.ProperNames := by
  intro b v hb
  obtain ⟨i, x, _, h2⟩ := gets_owned hd hout hg b v hb
  exact ⟨⟨some i, x⟩, h2⟩

/-! ## C29 -/

/-- **C29**, violated: after cloning a workspace that is on a branch, no commit in the clone ever succeeds until a branch of that
name is made or another revision is checked out: the clone is on a branch that does not exist. -/
theorem C29_violated_on_branch {d d' : Disk} (hd : Reachable E d) {cwd source cwd2 path2 : Str} (hout : E.Outside (Path.abs cwd source)) {w : OpenWs}
    (hg : Gets E d cwd source w) (hb : w.ws.branch ≠ []) (hout2 : E.Outside (Path.abs cwd2 path2)) {w' : OpenWs}
    (hio : f.io = false) (hrep : f.rep = false)
    (he : Exec E f (cloneCmd E cwd source (Path.abs cwd2 path2)) d (.ok w') d') :
    ∃ w2 u2 p2, Gets E d' cwd2 path2 w2 ∧ w2.ws.HeadAt w2.tree u2 p2 ∧ ¬ MayCommit w2 u2 := by
  obtain ⟨g, hs⟩ := steady_reachable hd
  obtain ⟨u, p, T, hF⟩ := found_of_gets hs hout hg
  obtain ⟨u2, ls, g', w2, h1, h2, h2', h3, h4, h5, h6, h7, h8, h9, h10⟩ := after_clone hs hF hout2 he
  refine ⟨w2, u2, p, gets_of_opens h4, h4.head, ?_⟩
  rintro (hx | ⟨h, hx, _⟩)
  · exact hb (h7.symm.trans hx)
  · rw [h9] at hx
    obtain ⟨i, x, hi, e⟩ := gets_owned hd hout hg _ h hx
    obtain ⟨rfl, _⟩ := own_inj e
    exact h5 ⟨hio, hrep, hs.tracked⟩ hi

/-- **C29**, what remains true: the clone of a workspace that is not on a branch can be committed to. -/
theorem C29_detached_partial {d d' : Disk} (hd : Reachable E d) {cwd source cwd2 path2 : Str} (hout : E.Outside (Path.abs cwd source)) {w : OpenWs}
    (hg : Gets E d cwd source w) (hb : w.ws.branch = []) (hout2 : E.Outside (Path.abs cwd2 path2)) {w' : OpenWs}
    (he : Exec E f (cloneCmd E cwd source (Path.abs cwd2 path2)) d (.ok w') d') :
    ∃ w2 u2 p2, Gets E d' cwd2 path2 w2 ∧ w2.ws.HeadAt w2.tree u2 p2 ∧ MayCommit w2 u2 := by
  obtain ⟨g, hs⟩ := steady_reachable hd
  obtain ⟨u, p, T, hF⟩ := found_of_gets hs hout hg
  obtain ⟨u2, ls, g', w2, h1, h2, h2', h3, h4, h5, h6, h7, h8, h9, h10⟩ := after_clone hs hF hout2 he
  exact ⟨w2, u2, p, gets_of_opens h4, h4.head, Or.inl (h7.trans hb)⟩

/-- **C29.** So, on a working system, the first commit there succeeds, if the mount of one more layer still fits. -/
theorem C29_detached_commits {d d' d2 : Disk} (hd : Reachable E d) {cwd source cwd2 : Str} (hout : E.Outside (Path.abs cwd source)) {w : OpenWs}
    (hg : Gets E d cwd source w) (hb : w.ws.branch = []) {u p : UID} (hh : w.ws.HeadAt w.tree u p) {ls : List UID} (hls : w.tree.abs.Path p ls)
    (hfit : E.Fits (ls.length + 1)) (hout2 : E.Outside (Path.abs cwd2 (lit "."))) {w' : OpenWs}
    (he : Exec E f (cloneCmd E cwd source (Path.abs cwd2 (lit "."))) d (.ok w') d')
    {ci : CommitInfo} {r : Res CErr (OpenWs × OpenWs)} (he2 : Exec E Faults.none (commitCmd E cwd2 ci) d' r d2) : ∃ x, r = .ok x := by
  obtain ⟨g, hs⟩ := steady_reachable hd
  obtain ⟨T, hF⟩ := gets_found hs hout hg hh
  obtain ⟨u2, ls', g', w2, h1, h2, h2', h3, h4, h5, h6, h7, h8, h9, h10⟩ := after_clone hs hF hout2 he
  cases Ws.path_unique h3 hls
  refine (accepted_of_steady (ls := u2 :: ls) h1 hout2 (gets_of_opens h4) h4.head (by rw [h9]; exact path_add h8 h3 _ _) (by simpa using hfit)
    ⟨_, _, _, by rw [h4.path]; exact h10.link, h10.mdir, rfl⟩ he2).2 (Or.inl (h7.trans hb))

/-! ## C30 -/

theorem found_utf8 {d : Disk} {g : Str → Option TS} {cwd path : Str} {w : OpenWs} {u p : UID} {T : TS} (hF : Found E d g cwd path w u p T) : w.tree.abs.Utf8 :=
  comesBack_is_utf8 hF.back

theorem add_anc_new {a : ATree} {v u' : UID} (hv : a.Has v) (hu : ¬ a.Has u') : (a.add (some v) u' (fun _ => none) (fun _ => none)).Anc v u' := by
  have hne : v ≠ u' := by rintro rfl; exact hu hv
  obtain ⟨n, hn⟩ := hv
  refine .step (p := v) (n := ⟨some v, fun _ => none, fun _ => none⟩) (by simp [ATree.add]) rfl (.refl (n := n) ?_)
  simp only [ATree.add, upd_ne _ _ hne]; exact hn

/-- **C30.** After checking out a branch of this workspace by its own name the workspace is on that branch and stands right
above its head, so the next commit is allowed and moves that branch (`C27_commit_effect`). -/
theorem C30_own_branch {d d' : Disk} (hd : Reachable E d) {cwd key : Str} (hout : E.Outside (Path.abs cwd (lit "."))) {w : OpenWs}
    (hg : Gets E d cwd (lit ".") w) (hkey : key ≠ []) {u p : UID} (hh : w.ws.HeadAt w.tree u p) {v : UID}
    (hres : Ws.Resolves w.tree.abs w.ws.id p key v .branch) (hown : w.tree.abs.branch (w.ws.id.base32 ++ lit "/" ++ key) = some v)
    {r : OpenWs × OpenWs} (he : Exec E f (checkoutCmd E cwd key) d (.ok r) d') :
    ∃ w2 u2, Gets E d' cwd (lit ".") w2 ∧ w2.ws.HeadAt w2.tree u2 v ∧ w2.ws.id = w.ws.id ∧ w2.ws.branch = key ∧ MayCommit w2 u2 := by
  obtain ⟨g, hs⟩ := steady_reachable hd
  obtain ⟨T, hF⟩ := gets_found hs hout hg hh
  obtain ⟨_, v', kt', u2, ls, g', w2, b1, b2, _, _, b3, b4, b5, b6, b7, b8, b9, b10⟩ := after_checkout hs hF he
  obtain ⟨rfl, rfl⟩ := Ws.resolves_unique b1 hres
  have hv : sanitize key = key := by
    have := (found_utf8 hF).branch _ _ hown
    rw [valid_iff_sanitize, sanitize_own, List.append_right_inj] at this
    exact this
  have hbr : w2.ws.branch = key := by rw [b7]; exact hv
  refine ⟨w2, u2, gets_of_opens b4, b4.head, b5, hbr, Or.inr ⟨v', ?_, ?_⟩⟩
  · rw [b9, b5, hbr]; exact hown
  · rw [b9]; exact add_anc_new (path_has b3 v' (by cases b3 <;> simp)) b8

/-- **C30.** So the commit that follows moves the branch to the new commit. -/
theorem C30_next_commit {d d1 d2 : Disk} (hd : Reachable E d) {cwd key : Str} (hout : E.Outside (Path.abs cwd (lit "."))) {w : OpenWs}
    (hg : Gets E d cwd (lit ".") w) (hkey : key ≠ []) {u p : UID} (hh : w.ws.HeadAt w.tree u p) {v : UID}
    (hres : Ws.Resolves w.tree.abs w.ws.id p key v .branch) (hown : w.tree.abs.branch (w.ws.id.base32 ++ lit "/" ++ key) = some v)
    {f1 f2 : Faults} {r r2 : OpenWs × OpenWs} {ci : CommitInfo}
    (he : Exec E f1 (checkoutCmd E cwd key) d (.ok r) d1) (he2 : Exec E f2 (commitCmd E cwd ci) d1 (.ok r2) d2) :
    ∃ w3 u3 c n, Gets E d2 cwd (lit ".") w3 ∧ w3.ws.HeadAt w3.tree u3 c ∧ w3.tree.abs.branch (w.ws.id.base32 ++ lit "/" ++ key) = some c ∧
      ¬ w.tree.abs.Has c ∧ w3.tree.abs.node c = some n ∧ n.parent = some v ∧ n.anno (lit "commit-message") = some (sanitize ci.message) := by
  obtain ⟨g, hs⟩ := steady_reachable hd
  obtain ⟨T, hF⟩ := gets_found hs hout hg hh
  obtain ⟨_, v', kt', u2, ls, g', w2, b1, b2, _, _, b3, b4, b5, b6, b7, b8, b9, b10⟩ := after_checkout hs hF he
  obtain ⟨rfl, rfl⟩ := Ws.resolves_unique b1 hres
  have hv : sanitize key = key := by
    have := (found_utf8 hF).branch _ _ hown
    rw [valid_iff_sanitize, sanitize_own, List.append_right_inj] at this
    exact this
  have hbr : w2.ws.branch = key := by rw [b7]; exact hv
  obtain ⟨T2, hF2⟩ := gets_found b2 hout (gets_of_opens b4) b4.head
  obtain ⟨_, _, u3, ls3, g3, w3, c1, c2, _, c3, c4, c5, c6, c7, c8, c9, c10, c11⟩ := after_commit b2 hF2 he2
  obtain ⟨_, n, hn, hp⟩ := b4.head
  have hE := commitEffect (w := w2.ws) (ci := ci) ⟨n, hn⟩ c8
  obtain ⟨n0, n', k1, k2, k3, _, _, k4, _⟩ := hE.commit
  rw [hn] at k1; cases k1
  refine ⟨w3, u3, u2, n', gets_of_opens c4, c4.head, ?_, b8, by rw [c9]; exact k2, k3.trans hp, k4⟩
  have := hE.moved (by rw [hbr]; exact hkey)
  rw [b5, hbr] at this
  rw [c9]; exact this

/-- **C30**, violated: if the branch was named by its full name, then a commit that follows leaves it where it was. (A branch
named `origin/...` does not exist, C60.) -/
theorem C30_violated_full_name {d d1 d2 : Disk} (hd : Reachable E d) {cwd key : Str} (hout : E.Outside (Path.abs cwd (lit "."))) {w : OpenWs}
    (hg : Gets E d cwd (lit ".") w) {u p : UID} (hh : w.ws.HeadAt w.tree u p) {v : UID}
    (hres : Ws.Resolves w.tree.abs w.ws.id p key v .branch) (hfull : w.tree.abs.branch key = some v)
    {f1 f2 : Faults} {r r2 : OpenWs × OpenWs} {ci : CommitInfo}
    (he : Exec E f1 (checkoutCmd E cwd key) d (.ok r) d1) (he2 : Exec E f2 (commitCmd E cwd ci) d1 (.ok r2) d2) :
    ∃ w3 u3 c, Gets E d2 cwd (lit ".") w3 ∧ w3.ws.HeadAt w3.tree u3 c ∧ c ≠ v ∧ w3.tree.abs.branch key = some v := by
  obtain ⟨g, hs⟩ := steady_reachable hd
  obtain ⟨T, hF⟩ := gets_found hs hout hg hh
  obtain ⟨_, v', kt', u2, ls, g', w2, b1, b2, _, _, b3, b4, b5, b6, b7, b8, b9, b10⟩ := after_checkout hs hF he
  obtain ⟨rfl, rfl⟩ := Ws.resolves_unique b1 hres
  obtain ⟨T2, hF2⟩ := gets_found b2 hout (gets_of_opens b4) b4.head
  obtain ⟨_, _, u3, ls3, g3, w3, c1, c2, _, c3, c4, c5, c6, c7, c8, c9, c10, c11⟩ := after_commit b2 hF2 he2
  refine ⟨w3, u3, u2, gets_of_opens c4, c4.head, ?_, ?_⟩
  · rintro rfl
    exact b8 (path_has b3 u2 (by cases b3 <;> simp))
  · obtain ⟨_, n, hn, _⟩ := b4.head
    rw [c9, (commitEffect (w := w2.ws) (ci := ci) ⟨n, hn⟩ c8).branches key (Or.inr ?_), b9]
    · exact hfull
    · rw [b7]
      have hkv : sanitize key = key := sanitize_valid ((found_utf8 hF).branch _ _ hfull)
      intro e
      have e' : key = w2.ws.id.base32 ++ lit "/" ++ key := by
        conv => rhs; rw [← hkv]
        exact e
      have := congrArg List.length e'
      simp only [List.length_append, C02_base32_length] at this
      omega

/-- **C30**, violated: right after checking out a branch by its full name, the next commit is refused (`C28_refused`), unless the
workspace also has a branch whose own name is that full name. -/
theorem C30_violated_refused {d d1 : Disk} (hd : Reachable E d) {cwd key : Str} (hout : E.Outside (Path.abs cwd (lit "."))) {w : OpenWs}
    (hg : Gets E d cwd (lit ".") w) {u p : UID} (hh : w.ws.HeadAt w.tree u p) {v : UID}
    (hres : Ws.Resolves w.tree.abs w.ws.id p key v .branch) (hfull : w.tree.abs.branch key = some v)
    (hno : w.tree.abs.branch (w.ws.id.base32 ++ lit "/" ++ key) = none)
    {r : OpenWs × OpenWs} (he : Exec E f (checkoutCmd E cwd key) d (.ok r) d1) :
    ∃ w2 u2, Gets E d1 cwd (lit ".") w2 ∧ w2.ws.HeadAt w2.tree u2 v ∧ w2.ws.id = w.ws.id ∧ w2.tree.abs.branch key = some v ∧ ¬ MayCommit w2 u2 := by
  obtain ⟨g, hs⟩ := steady_reachable hd
  obtain ⟨T, hF⟩ := gets_found hs hout hg hh
  obtain ⟨_, v', kt', u2, ls, g', w2, b1, b2, _, _, b3, b4, b5, b6, b7, b8, b9, b10⟩ := after_checkout hs hF he
  obtain ⟨rfl, rfl⟩ := Ws.resolves_unique b1 hres
  have hbr : w2.ws.branch = key := b7.trans (sanitize_valid ((found_utf8 hF).branch _ _ hfull))
  refine ⟨w2, u2, gets_of_opens b4, b4.head, b5, by rw [b9]; exact hfull, ?_⟩
  rintro (h | ⟨x, h, _⟩)
  · rw [hbr] at h
    subst h
    obtain ⟨i, x, _, h2⟩ := gets_owned hd hout hg _ _ hfull
    have := congrArg List.length h2
    simp only [BranchInfo.fullName, List.length_append, C02_base32_length, List.length_nil] at this
    omega
  · rw [b9, b5, hbr] at h
    have h : w.tree.abs.branch (w.ws.id.base32 ++ lit "/" ++ key) = some x := h
    rw [hno] at h; cases h

/-! ## C46 -/

theorem sanitize_eq_ascii {k r : Str} (h : sanitize k = r) (hr : ∀ b ∈ r, b < (0x80 : UInt8)) : k = r := by
  have hv : validUtf8 k := by
    rintro c hc b rfl
    have : (0xEF : UInt8) ∈ r := by
      rw [← h, sanitize, List.mem_flatMap]
      exact ⟨_, hc, by simp [Chunk.clean, replacement]⟩
    exact absurd (hr _ this) (by decide)
  rw [← h, sanitize_valid hv]

/-- The tag ROOT names the root. -/
def RootTag (_ : UID → Prop) (a : ATree) : Prop := ∃ r, a.root = some r ∧ a.tag (lit "ROOT") = some r

/-- The act is not `tag -d ROOT` and not `tag -f ROOT`. -/
def Act.SparesRoot : Act → Prop
  | .edit _ es => Edit.deleteTag (lit "ROOT") ∉ es ∧ ∀ ref, Edit.addTag (lit "ROOT") ref true ∉ es
  | _ => True

theorem rootTag_edits {U : UID → Prop} {a a' : ATree} {w : Ws} {p : UID} {es : List Edit} (h : EditsAll w p es a a')
    (hs : Edit.deleteTag (lit "ROOT") ∉ es ∧ ∀ ref, Edit.addTag (lit "ROOT") ref true ∉ es) (ho : RootTag U a) : RootTag U a' := by
  induction h with
  | nil => exact ho
  | cons h1 _ ih =>
    refine ih ⟨fun h => hs.1 (by simp [h]), fun ref h => hs.2 ref (by simp [h])⟩ ?_
    obtain ⟨r, h2, h3⟩ := ho
    cases h1 with
    | addBranch => exact ⟨r, h2, h3⟩
    | deleteOwn => exact ⟨r, h2, h3⟩
    | deleteGlobal => exact ⟨r, h2, h3⟩
    | @addTag name ref force v k _ hf =>
      refine ⟨r, h2, ?_⟩
      have hne : lit "ROOT" ≠ name := by
        rintro rfl
        rcases hf with hf | rfl
        · rw [h3] at hf; cases hf
        · exact hs.2 ref (by simp)
      simp only [ATree.setTag, upd_ne _ _ hne]; exact h3
    | @deleteTag name _ =>
      refine ⟨r, h2, ?_⟩
      have hne : lit "ROOT" ≠ name := by rintro rfl; exact hs.1 (by simp)
      simp only [ATree.delTag, upd_ne _ _ hne]; exact h3

theorem keeps_rootTag : Keeps Act.SparesRoot RootTag where
  mono _ h := h
  back hc := by
    rintro ⟨r, h1, h2⟩
    refine ⟨r, by rw [hc.root]; exact h1, (hc.tag _ _).2 ⟨_, r, h2, rfl, sanitize_ascii (by decide), fun k1 v1 _ h4 => ?_⟩⟩
    rw [sanitize_eq_ascii h4 (by decide)]; exact strLe_refl _
  init _ _ hne := ⟨_, rfl, by simp [ATree.initial, ATree.setBranch, ATree.add, ATree.first, ATree.setTag]⟩
  turn hA ho ht := by
    cases ht with
    | clone => exact ho
    | checkout => exact ho
    | @commit _ _ _ w u u' _ _ _ _ =>
      obtain ⟨r, h1, h2⟩ := ho
      cases hb : w.onBranch <;> exact ⟨r, h1, h2⟩
    | edit _ _ hpre he => exact rootTag_edits he ⟨fun h => hA.1 (hpre.subset h), fun ref h => hA.2 ref (hpre.subset h)⟩ ho

/-- **C46 (partial).** In every history without `tag -d ROOT` and `tag -f ROOT`, the reference ROOT names the root of every
space. -/
theorem C46_root_partial {d0 d : Disk} (h0 : Untouched d0) (hio : f.io = false) (hp : PastOf E f Act.SparesRoot d0 d) {cwd path : Str}
    (hout : E.Outside (Path.abs cwd path)) {w : OpenWs} (hg : Gets E d cwd path w) {u p : UID} (hh : w.ws.HeadAt w.tree u p) :
    ∃ r, w.tree.abs.root = some r ∧ ∀ v k, Ws.Resolves w.tree.abs w.ws.id p (lit "ROOT") v k ↔ v = r ∧ k = .tag := by
  have hd : Reachable E d := reachable_untouched hio h0 (past_of_pastOf hp)
  obtain ⟨g, hs⟩ := steady_reachable hd
  obtain ⟨T, hF⟩ := gets_found hs hout hg hh
  obtain ⟨_, b, _, _, h1, h2⟩ := hF.opens.tree
  obtain ⟨r, h3, h4⟩ := (allTrees_past keeps_rootTag hio h0 hp).2 _ b w.tree h1 h2
  have hR : Ws.Resolves w.tree.abs w.ws.id p (lit "ROOT") r .tag :=
    .tag (by decide) (fun v hv => by rcases hv with ⟨h, _⟩ | ⟨h, _⟩ <;> exact absurd h (by decide)) h4
  refine ⟨r, h3, fun v k => ⟨fun h => Ws.resolves_unique h hR, ?_⟩⟩
  rintro ⟨rfl, rfl⟩
  exact hR

end
end Verif
