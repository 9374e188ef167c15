import Verif.Props.Stories
import Verif.World.Mono
/-!
# Other paths to a workspace (C94)

A workspace is a symbolic link to a mount point. Users move and copy links.
-/
set_option autoImplicit false
namespace Verif
open M TS Json

/-- The same workspace at the path `p`. -/
def OpenWs.moveTo (w : OpenWs) (p : Str) : OpenWs := { w with ws := { w.ws with path := p } }

section
variable {E : Env} {f : Faults}

theorem mountIDOf_abs {root cwd path cwd2 path2 t : Str} (ht : Path.isAbs t = true) : mountIDOf root cwd2 path2 (some t) = mountIDOf root cwd path (some t) := by
  simp only [mountIDOf_eq, targetOf, if_pos ((isAbs_iff t).1 ht)]

theorem reachable_files {d : Disk} (h : Reachable E d) (us : Str → UEnt) : Reachable E { d with user := us } := by
  obtain ⟨g, d0, h1, h2, h3⟩ := h
  exact ⟨g, d0, h1, h2, .step (o := E.owner) h3 (a := .files us) trivial .files⟩

theorem editAll_moveTo {dir : Str} {w : OpenWs} {q : Str} {es : List Edit} : ∀ {s : TS}, editAll dir (w.moveTo q).ws es s = editAll dir w.ws es s := by
  induction es with
  | nil => intro s; rfl
  | cons e es ih =>
    intro s
    rw [editAll, editAll]
    have : e.apply s (w.moveTo q).ws = e.apply s w.ws := by cases e <;> rfl
    rw [this]
    simp only [ih]

theorem opens_elsewhere {d : Disk} {cwd path : Str} {w : OpenWs} {u p : UID} (h : Opens E d cwd path w u p) {us : Str → UEnt} {t cwd2 path2 : Str}
    (h1 : d.user (Path.abs cwd path) = .link t) (ht : Path.isAbs t = true) (hout : E.Outside (Path.abs cwd2 path2)) (h2 : us (Path.abs cwd2 path2) = .link t) :
    Opens E { d with user := us } cwd2 path2 (w.moveTo (Path.abs cwd2 path2)) u p := by
  obtain ⟨t', e1, e2⟩ := h.link
  rw [h1] at e1; cases e1
  exact ⟨hout, ⟨t, h2, by rw [mountIDOf_abs (cwd := cwd) (path := path) ht]; exact e2⟩, rfl, h.info, h.mount, h.dir, h.tree, h.head, h.stored⟩

/-- **C94.** The user moves a workspace, or changes their files in any other way so that the link is now at another path. The workspace is then there: it is the same workspace
of the same history, on the same branch, and shows the same files. If nothing is left at the old path there is no workspace there any more. -/
theorem C94_moved {d : Disk} (hd : Reachable E d) {cwd path cwd2 path2 : Str} (hout : E.Outside (Path.abs cwd path)) (hout2 : E.Outside (Path.abs cwd2 path2)) {w : OpenWs}
    (hg : Gets E d cwd path w) {t : Str} (h1 : d.user (Path.abs cwd path) = .link t) (ht : Path.isAbs t = true) {us : Str → UEnt} (h2 : us (Path.abs cwd2 path2) = .link t) :
    Reachable E { d with user := us } ∧ Gets E { d with user := us } cwd2 path2 (w.moveTo (Path.abs cwd2 path2)) ∧
      Disk.lists { d with user := us } (w.moveTo (Path.abs cwd2 path2)) = d.lists w ∧
      (us (Path.abs cwd path) = .none → ∀ w', ¬ Gets E { d with user := us } cwd path w') := by
  obtain ⟨g, hs⟩ := steady_reachable hd
  obtain ⟨u, p, T, hF⟩ := found_of_gets hs hout hg
  have hr : Reachable E { d with user := us } := reachable_files hd us
  refine ⟨hr, gets_of_opens (opens_elsewhere hF.opens h1 ht hout2 h2), rfl, fun hn w' hw => ?_⟩
  obtain ⟨g', hs'⟩ := steady_reachable hr
  obtain ⟨_, _, _, hF'⟩ := found_of_gets hs' hout hw
  obtain ⟨_, e, _⟩ := hF'.opens.link
  simp only [hn] at e
  cases e

/-- **C94.** The links that `init` and `clone` make do not depend on where they are. -/
theorem C94_init {d d' : Disk} (hd : Reachable E d) {cwd path branch : Str} (hout : E.Outside (Path.abs cwd path)) {r : OpenWs}
    (he : Exec E f (initCmd E (Path.abs cwd path) branch) d (.ok r) d') :
    (∃ w, Gets E d' cwd path w) ∧ ∃ t, d'.user (Path.abs cwd path) = .link t ∧ Path.isAbs t = true := by
  obtain ⟨g, hs⟩ := steady_reachable hd
  obtain ⟨_, _, _, _, w, _, _, _, _, _, ho, _, _, _, hfr, _⟩ := after_init hs hout he
  exact ⟨⟨w, gets_of_opens ho⟩, _, hfr.link, rfl⟩

theorem C94_clone {d d' : Disk} (hd : Reachable E d) {cwd source cwd2 path2 : Str} (hout : E.Outside (Path.abs cwd source)) (hout2 : E.Outside (Path.abs cwd2 path2)) {w r : OpenWs}
    (hg : Gets E d cwd source w) (he : Exec E f (cloneCmd E cwd source (Path.abs cwd2 path2)) d (.ok r) d') :
    (∃ w, Gets E d' cwd2 path2 w) ∧ ∃ t, d'.user (Path.abs cwd2 path2) = .link t ∧ Path.isAbs t = true := by
  obtain ⟨g, hs⟩ := steady_reachable hd
  obtain ⟨u, p, T, hF⟩ := found_of_gets hs hout hg
  obtain ⟨_, _, _, w, _, _, _, _, ho, _, _, _, _, _, hfr⟩ := after_clone hs hF hout2 he
  exact ⟨⟨w, gets_of_opens ho⟩, _, hfr.link, rfl⟩

/-- **C94.** A commit through a link leaves the workspace at that link and touches no other path. -/
theorem C94_commit {d d' : Disk} (hd : Reachable E d) {cwd : Str} (hout : E.Outside (Path.abs cwd (lit "."))) {w : OpenWs} (hg : Gets E d cwd (lit ".") w) {ci : CommitInfo}
    {r : OpenWs × OpenWs} (he : Exec E f (commitCmd E cwd ci) d (.ok r) d') :
    (∃ w', Gets E d' cwd (lit ".") w' ∧ SameWs w w') ∧ (∃ t, d'.user (Path.abs cwd (lit ".")) = .link t ∧ Path.isAbs t = true) ∧ ∀ q, q ≠ Path.abs cwd (lit ".") → d'.user q = d.user q := by
  obtain ⟨g, hs⟩ := steady_reachable hd
  obtain ⟨u, p, T, hF⟩ := found_of_gets hs hout hg
  obtain ⟨_, _, u', ls, g', w2, _, _, _, _, h4, h5, h6, h7, _, _, h, _⟩ := after_commit hs hF he
  exact ⟨⟨w2, gets_of_opens h4, h5, h7, h6⟩, ⟨_, by rw [← hF.opens.path]; exact h.link, rfl⟩, fun q hq => h.user q (by rw [hF.opens.path]; exact hq)⟩

/-- What `branch` and `tag` do from a path where a workspace opens. -/
theorem edit_through (hio : f.io = false) {d : Disk} {cwd : Str} {w : OpenWs} {u p : UID} (h : Opens E d cwd (lit ".") w u p) {es : List Edit} {r : Res CErr TS} {d' : Disk} :
    Exec E f (editCmd E cwd es) d r d' ↔ Exec E f (editAll w.spaceDir w.ws es w.tree) d r d' := by
  constructor
  · intro he
    obtain ⟨a, d1, h1, h2⟩ := exec_bind (p := getWorkspace E cwd (lit ".")) he
    have := wpm_exec (getWorkspace_wp (f := f) h) h1
    cases a with
    | ok a => obtain ⟨rfl, rfl⟩ := this; exact h2
    | err e => rw [this.2.2] at hio; cases hio
    | panic => exact this.elim
    | diverge => exact this.elim
  · intro he
    exact exec_ok (x := getWorkspace E cwd (lit ".")) (exec_mono (none_le f) (gets_of_opens h)) he

/-- **C94.** So does a checkout. -/
theorem C94_checkout {d d' : Disk} (hd : Reachable E d) {cwd key : Str} (hout : E.Outside (Path.abs cwd (lit "."))) {w : OpenWs} (hg : Gets E d cwd (lit ".") w)
    {r : OpenWs × OpenWs} (he : Exec E f (checkoutCmd E cwd key) d (.ok r) d') :
    (∃ w', Gets E d' cwd (lit ".") w' ∧ w'.ws.id = w.ws.id ∧ w'.spaceID = w.spaceID) ∧
      (∃ t, d'.user (Path.abs cwd (lit ".")) = .link t ∧ Path.isAbs t = true) ∧ ∀ q, q ≠ Path.abs cwd (lit ".") → d'.user q = d.user q := by
  obtain ⟨g, hs⟩ := steady_reachable hd
  obtain ⟨u, p, T, hF⟩ := found_of_gets hs hout hg
  obtain ⟨_, _, _, u', ls, g', w2, _, _, _, _, _, h4, h5, h6, h7, _, _, h⟩ := after_checkout hs hF he
  exact ⟨⟨w2, gets_of_opens h4, h5, h6⟩, ⟨_, by rw [← hF.opens.path]; exact h.link, rfl⟩, fun q hq => h.user q (by rw [hF.opens.path]; exact hq)⟩

/-- **C94.** Through two links to a workspace one sees the same workspace, and commands that change branches and tags do the same, whatever they are told to do. -/
theorem C94_same {d : Disk} (hd : Reachable E d) (hio : f.io = false) {cwd cwd2 : Str} (hout : E.Outside (Path.abs cwd (lit "."))) (hout2 : E.Outside (Path.abs cwd2 (lit "."))) {w : OpenWs}
    (hg : Gets E d cwd (lit ".") w) {t : Str} (h1 : d.user (Path.abs cwd (lit ".")) = .link t) (ht : Path.isAbs t = true) (h2 : d.user (Path.abs cwd2 (lit ".")) = .link t) :
    Gets E d cwd2 (lit ".") (w.moveTo (Path.abs cwd2 (lit "."))) ∧
    ∀ (es : List Edit) (r : Res CErr TS) (d' : Disk), Exec E f (editCmd E cwd es) d r d' ↔ Exec E f (editCmd E cwd2 es) d r d' := by
  obtain ⟨g, hs⟩ := steady_reachable hd
  obtain ⟨u, p, T, hF⟩ := found_of_gets hs hout hg
  have ho : Opens E d cwd2 (lit ".") (w.moveTo (Path.abs cwd2 (lit "."))) u p := opens_elsewhere (us := d.user) hF.opens h1 ht hout2 h2
  refine ⟨gets_of_opens ho, fun es r d' => ?_⟩
  rw [edit_through hio hF.opens, edit_through hio ho, editAll_moveTo]
  rfl

/-- **C94 is violated** for two links to a workspace: after a commit through one of them the other leads to nothing. -/
theorem C94_violated_two_links {d d' : Disk} (hd : Reachable E d) {cwd cwd2 path2 : Str} (hout : E.Outside (Path.abs cwd (lit "."))) (hout2 : E.Outside (Path.abs cwd2 path2))
    (hne : Path.abs cwd2 path2 ≠ Path.abs cwd (lit ".")) {w w1 : OpenWs}
    (hg : Gets E d cwd (lit ".") w) (hg1 : Gets E d cwd2 path2 w1) (hm : w1.mount.id = w.mount.id) {ci : CommitInfo} {r : OpenWs × OpenWs}
    (he : Exec E f (commitCmd E cwd ci) d (.ok r) d') : ∀ w', ¬ Gets E d' cwd2 path2 w' := by
  obtain ⟨g, hs⟩ := steady_reachable hd
  obtain ⟨u, p, T, hF⟩ := found_of_gets hs hout hg
  obtain ⟨_, _, _, hF1⟩ := found_of_gets hs hout2 hg1
  obtain ⟨_, _, u', ls, g', w2, s1, _, _, _, h4, h5, h6, h7, _, _, h, _⟩ := after_commit hs hF he
  intro w' hw
  obtain ⟨_, _, _, hF'⟩ := found_of_gets s1 hout2 hw
  obtain ⟨t, e1, e2⟩ := hF1.opens.link
  obtain ⟨t', e1', e2'⟩ := hF'.opens.link
  rw [h.user _ (by rw [hF.opens.path]; exact hne), e1] at e1'
  cases e1'
  rw [e2] at e2'
  have hid : w'.mount.id = w.mount.id := by rw [← hm]; exact (Res.ok.inj e2').symm
  obtain ⟨i, hi, _⟩ := hF'.opens.info
  rw [hid, (h.gone _ rfl).2.1] at hi
  cases hi

end
end Verif
