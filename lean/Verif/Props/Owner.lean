import Verif.Props.FrozenExamples
import Verif.Props.MoreExamples
import Verif.Props.Initial
/-!
# Who owns a workspace, and with which permissions

Only the top directory of a workspace is concerned: owner and mode of everything below are part of what C27, C33, C34 and C58
say is kept. `E.owner` is the user who gives the command (`--uid`, C64); the history before may contain commands of any users.
-/
set_option autoImplicit false
namespace Verif
open M TS Json

/-- The top directory of the workspace as its user sees it. -/
def Disk.top (d : Disk) (w : OpenWs) : Option VEnt := d.shows w.mount.id.base32 []

/-- A directory that everybody may read and only the user `o` may write. -/
def Attr.of (o : Nat) : Attr := ⟨0o755, o⟩

section
variable {E : Env} {f : Faults}

theorem top_fresh {d d' : Disk} {w : OpenWs} {old : Str → Prop} {u' : UID} {ls : List UID} {path : Str} (h : Fresh E d d' w.mount.id.base32 old u' ls path) :
    d'.top w = some (.dir (Attr.of E.owner)) := by
  have h1 : d'.content u' = Content.empty.chown E.owner := by simp [Disk.content, h.layer]
  simp only [Disk.top, Disk.shows, h.mnt, List.map_cons, view, topEnt, h1, Content.chown, Content.empty, if_pos]
  rfl

/-- All other mounts show what they showed, their top directories included. -/
theorem shows_fresh {d d' : Disk} {g : Str → Option TS} (hs : Steady E d g) {n : Str} {old : Str → Prop} {u' : UID} {ls : List UID} {path : Str}
    (h : Fresh E d d' n old u' ls path) {k : Str} (hk : k ≠ n) (ho : ¬ old k) : d'.shows k = d.shows k := by
  obtain ⟨h1, _, h3⟩ := h.others k hk ho
  funext p
  simp only [Disk.shows, h1, h3]
  cases hm : d.mnt k with
  | none => rfl
  | some m =>
    simp only
    congr 1
    refine List.map_congr_left fun v hv => content_upd h.layer ?_
    rintro rfl
    have hst : d.HasDiff v := by
      rcases List.mem_cons.1 hv with rfl | hv
      · exact head_stored hs (mnt_head hs hm)
      · obtain ⟨_, _, _, h5, _⟩ := hs.mnt k m hm
        exact h5 v hv
    obtain ⟨c, hc⟩ := hst
    rw [h.newLayer] at hc; cases hc

/-- **C75.** A new workspace belongs to the user who made it. -/
theorem C75_init {d d' : Disk} (hd : Reachable E d) {cwd path branch : Str} (hout : E.Outside (Path.abs cwd path)) {w' : OpenWs}
    (he : Exec E f (initCmd E (Path.abs cwd path) branch) d (.ok w') d') :
    ∃ w, Gets E d' cwd path w ∧ d'.top w = some (.dir (Attr.of E.owner)) := by
  obtain ⟨g, hs⟩ := steady_reachable hd
  obtain ⟨root, u', dp, g', w2, _, _, _, _, _, ho, _, _, _, hfr, _⟩ := after_init hs hout he
  exact ⟨w2, gets_of_opens ho, top_fresh hfr⟩

/-- **C75.** So does a clone. The workspace it is made from stays as it was. -/
theorem C75_clone {d d' : Disk} (hd : Reachable E d) {cwd source cwd2 path2 : Str} (hout : E.Outside (Path.abs cwd source)) (hout2 : E.Outside (Path.abs cwd2 path2))
    {w : OpenWs} (hg : Gets E d cwd source w) {w' : OpenWs} (he : Exec E f (cloneCmd E cwd source (Path.abs cwd2 path2)) d (.ok w') d') :
    (∃ w2, Gets E d' cwd2 path2 w2 ∧ d'.top w2 = some (.dir (Attr.of E.owner))) ∧ (d.mdir w.mount.id.base32 ≠ none → d'.top w = d.top w) := by
  obtain ⟨g, hs⟩ := steady_reachable hd
  obtain ⟨u, p, T, hF⟩ := found_of_gets hs hout hg
  obtain ⟨u', ls, g', w2, _, _, _, _, ho, _, _, _, _, _, hfr⟩ := after_clone hs hF hout2 he
  refine ⟨⟨w2, gets_of_opens ho, top_fresh hfr⟩, fun hm => ?_⟩
  have hk : w.mount.id.base32 ≠ w2.mount.id.base32 := by intro e; rw [e] at hm; exact hm hfr.newMdir
  exact congrFun (shows_fresh hs hfr hk (fun x => x)) []

/-- **C75.** After a commit the workspace belongs to the user who commits, whomever it belonged to. -/
theorem C75_commit {d d' : Disk} (hd : Reachable E d) {cwd : Str} (hout : E.Outside (Path.abs cwd (lit "."))) {w : OpenWs} (hg : Gets E d cwd (lit ".") w) {ci : CommitInfo}
    {r : OpenWs × OpenWs} (he : Exec E f (commitCmd E cwd ci) d (.ok r) d') :
    ∃ w2, Gets E d' cwd (lit ".") w2 ∧ d'.top w2 = some (.dir (Attr.of E.owner)) := by
  obtain ⟨g, hs⟩ := steady_reachable hd
  obtain ⟨u, p, T, hF⟩ := found_of_gets hs hout hg
  obtain ⟨_, _, u', ls, g', w2, _, _, _, _, ho, _, _, _, _, _, hfr, _⟩ := after_commit hs hF he
  exact ⟨w2, gets_of_opens ho, top_fresh hfr⟩

/-- **C75.** After a checkout the workspace belongs to the user who checks out. -/
theorem C75_checkout {d d' : Disk} (hd : Reachable E d) {cwd key : Str} (hout : E.Outside (Path.abs cwd (lit "."))) {w : OpenWs} (hg : Gets E d cwd (lit ".") w)
    {r : OpenWs × OpenWs} (he : Exec E f (checkoutCmd E cwd key) d (.ok r) d') :
    ∃ w2, Gets E d' cwd (lit ".") w2 ∧ d'.top w2 = some (.dir (Attr.of E.owner)) := by
  obtain ⟨g, hs⟩ := steady_reachable hd
  obtain ⟨u, p, T, hF⟩ := found_of_gets hs hout hg
  obtain ⟨_, v, kt, u', ls, g', w2, _, _, _, _, _, ho, _, _, _, _, _, hfr⟩ := after_checkout hs hF he
  exact ⟨w2, gets_of_opens ho, top_fresh hfr⟩

/-- **C75.** A commit of another user in another workspace takes nothing away: every other mounted workspace keeps its owner and
permissions. -/
theorem C75_others_commit {d d' : Disk} (hd : Reachable E d) {cwd cwd1 : Str} (hout : E.Outside (Path.abs cwd (lit "."))) (hout1 : E.Outside (Path.abs cwd1 (lit ".")))
    {w w1 : OpenWs} (hg : Gets E d cwd (lit ".") w) (hg1 : Gets E d cwd1 (lit ".") w1) (hne : w1.mount.id ≠ w.mount.id) {ci : CommitInfo}
    {r : OpenWs × OpenWs} (he : Exec E f (commitCmd E cwd ci) d (.ok r) d') : d'.top w1 = d.top w1 := by
  obtain ⟨g, hs⟩ := steady_reachable hd
  obtain ⟨u, p, T, hF⟩ := found_of_gets hs hout hg
  obtain ⟨u1, p1, T1, hF1⟩ := found_of_gets hs hout1 hg1
  obtain ⟨_, _, u', ls, g', w2, _, _, _, _, ho, _, _, _, _, _, hfr, _⟩ := after_commit hs hF he
  have hk : w1.mount.id.base32 ≠ w2.mount.id.base32 := by intro e; exact hF1.mdir (by rw [e]; exact hfr.newMdir)
  exact congrFun (shows_fresh hs hfr hk fun e => hne (base32_inj e)) []

/-- The same for a checkout. -/
theorem C75_others_checkout {d d' : Disk} (hd : Reachable E d) {cwd cwd1 key : Str} (hout : E.Outside (Path.abs cwd (lit "."))) (hout1 : E.Outside (Path.abs cwd1 (lit ".")))
    {w w1 : OpenWs} (hg : Gets E d cwd (lit ".") w) (hg1 : Gets E d cwd1 (lit ".") w1) (hne : w1.mount.id ≠ w.mount.id)
    {r : OpenWs × OpenWs} (he : Exec E f (checkoutCmd E cwd key) d (.ok r) d') : d'.top w1 = d.top w1 := by
  have hk := plain_of_checkout he
  obtain ⟨g, hs⟩ := steady_reachable hd
  obtain ⟨u, p, T, hF⟩ := found_of_gets hs hout hg
  obtain ⟨u1, p1, T1, hF1⟩ := found_of_gets hs hout1 hg1
  obtain ⟨_, v, kt, u', ls, g', w2, _, _, _, _, _, ho, _, _, _, _, _, hfr⟩ := after_checkout hs hF he
  have hk : w1.mount.id.base32 ≠ w2.mount.id.base32 := by intro e; exact hF1.mdir (by rw [e]; exact hfr.newMdir)
  exact congrFun (shows_fresh hs hfr hk fun e => hne (base32_inj e)) []

/-- The same for a clone; the source is one of the others. -/
theorem C75_others_clone {d d' : Disk} (hd : Reachable E d) {cwd source cwd1 path1 cwd2 path2 : Str} (hout : E.Outside (Path.abs cwd source))
    (hout1 : E.Outside (Path.abs cwd1 path1)) (hout2 : E.Outside (Path.abs cwd2 path2)) {w w1 : OpenWs} (hg : Gets E d cwd source w) (hg1 : Gets E d cwd1 path1 w1)
    {w' : OpenWs} (he : Exec E f (cloneCmd E cwd source (Path.abs cwd2 path2)) d (.ok w') d') : d'.top w1 = d.top w1 := by
  obtain ⟨g, hs⟩ := steady_reachable hd
  obtain ⟨u, p, T, hF⟩ := found_of_gets hs hout hg
  obtain ⟨u1, p1, T1, hF1⟩ := found_of_gets hs hout1 hg1
  obtain ⟨u', ls, g', w2, _, _, _, _, ho, _, _, _, _, _, hfr⟩ := after_clone hs hF hout2 he
  have hk : w1.mount.id.base32 ≠ w2.mount.id.base32 := by intro e; exact hF1.mdir (by rw [e]; exact hfr.newMdir)
  exact congrFun (shows_fresh hs hfr hk (fun x => x)) []

/-- The same for an init. -/
theorem C75_others_init {d d' : Disk} (hd : Reachable E d) {cwd path cwd1 path1 branch : Str} (hout : E.Outside (Path.abs cwd path))
    (hout1 : E.Outside (Path.abs cwd1 path1)) {w1 : OpenWs} (hg1 : Gets E d cwd1 path1 w1) {w' : OpenWs}
    (he : Exec E f (initCmd E (Path.abs cwd path) branch) d (.ok w') d') : d'.top w1 = d.top w1 := by
  obtain ⟨g, hs⟩ := steady_reachable hd
  obtain ⟨u1, p1, T1, hF1⟩ := found_of_gets hs hout1 hg1
  obtain ⟨root, u', dp, g', w2, hFo, _, _, _, _, ho, _, _, _, hfr, _⟩ := after_init hs hout he
  have hk : w1.mount.id.base32 ≠ w2.mount.id.base32 := by intro e; exact hF1.mdir (by rw [e, ← hFo.mdir]; exact hfr.newMdir)
  obtain ⟨h1, _, h3⟩ := hfr.others _ hk (fun x => x)
  rw [hFo.litter.mnt] at h1
  rw [hFo.mdir] at h3
  simp only [Disk.top, Disk.shows, h1, h3]
  cases hm : d.mnt w1.mount.id.base32 with
  | none => rfl
  | some m =>
    simp only
    refine congrArg (fun l => view l []) (List.map_congr_left fun v hv => ?_)
    have hst : d.HasDiff v := by
      rcases List.mem_cons.1 hv with rfl | hv
      · exact head_stored hs (mnt_head hs hm)
      · obtain ⟨_, _, _, h5, _⟩ := hs.mnt _ m hm
        exact h5 v hv
    obtain ⟨c, hc⟩ := hst
    have hr : v ≠ root := by rintro rfl; rw [hFo.newLayer] at hc; cases hc
    have hu : v ≠ u' := by
      rintro rfl
      have := hfr.newLayer
      rw [hFo.layer, upd_ne _ _ hr, hc] at this; cases this
    rw [content_upd hfr.layer hu, content_upd hFo.layer hr]

/-- **C76 (violated).** A workspace whose top directory has any other permissions, such as one that its user has closed to
everybody else, is open to everybody after a commit. -/
theorem C76_violated_commit {d d' : Disk} (hd : Reachable E d) {cwd : Str} (hout : E.Outside (Path.abs cwd (lit "."))) {w : OpenWs} (hg : Gets E d cwd (lit ".") w)
    {a : Attr} (_hcl : d.top w = some (.dir a)) (hm : a.mode ≠ 0o755) {ci : CommitInfo} {r : OpenWs × OpenWs} (he : Exec E f (commitCmd E cwd ci) d (.ok r) d') :
    ∃ w2 a2, Gets E d' cwd (lit ".") w2 ∧ d'.top w2 = some (.dir a2) ∧ a2.mode = 0o755 ∧ a2.mode ≠ a.mode := by
  obtain ⟨w2, h1, h2⟩ := C75_commit hd hout hg he
  exact ⟨w2, _, h1, h2, rfl, Ne.symm hm⟩

/-- **C76 (violated).** The same for a checkout, also of the commit that is checked out already. -/
theorem C76_violated_checkout {d d' : Disk} (hd : Reachable E d) {cwd key : Str} (hout : E.Outside (Path.abs cwd (lit "."))) {w : OpenWs} (hg : Gets E d cwd (lit ".") w)
    {a : Attr} (_hcl : d.top w = some (.dir a)) (hm : a.mode ≠ 0o755) {r : OpenWs × OpenWs} (he : Exec E f (checkoutCmd E cwd key) d (.ok r) d') :
    ∃ w2 a2, Gets E d' cwd (lit ".") w2 ∧ d'.top w2 = some (.dir a2) ∧ a2.mode = 0o755 ∧ a2.mode ≠ a.mode := by
  obtain ⟨w2, h1, h2⟩ := C75_checkout hd hout hg he
  exact ⟨w2, _, h1, h2, rfl, Ne.symm hm⟩

/-- **C76 (violated).** And for a clone of a closed workspace. -/
theorem C76_violated_clone {d d' : Disk} (hd : Reachable E d) {cwd source cwd2 path2 : Str} (hout : E.Outside (Path.abs cwd source)) (hout2 : E.Outside (Path.abs cwd2 path2))
    {w : OpenWs} (hg : Gets E d cwd source w) {a : Attr} (_hcl : d.top w = some (.dir a)) (hm : a.mode ≠ 0o755) {w' : OpenWs}
    (he : Exec E f (cloneCmd E cwd source (Path.abs cwd2 path2)) d (.ok w') d') :
    ∃ w2 a2, Gets E d' cwd2 path2 w2 ∧ d'.top w2 = some (.dir a2) ∧ a2.mode = 0o755 ∧ a2.mode ≠ a.mode := by
  obtain ⟨⟨w2, h1, h2⟩, _⟩ := C75_clone hd hout hout2 hg he
  exact ⟨w2, _, h1, h2, rfl, Ne.symm hm⟩

/-- **C76 (violated).** When another user, such as root, commits in a workspace, its user loses it: the top directory belongs to the
other user, and the mode lets nobody else write. -/
theorem C76_violated_owner {d d' : Disk} (hd : Reachable E d) {cwd : Str} (hout : E.Outside (Path.abs cwd (lit "."))) {w : OpenWs} (hg : Gets E d cwd (lit ".") w)
    {o : Nat} (_ho : d.top w = some (.dir (Attr.of o))) (hne : o ≠ E.owner) {ci : CommitInfo} {r : OpenWs × OpenWs} (he : Exec E f (commitCmd E cwd ci) d (.ok r) d') :
    ∃ w2 a2, Gets E d' cwd (lit ".") w2 ∧ d'.top w2 = some (.dir a2) ∧ a2.owner ≠ o ∧ a2.mode = 0o755 := by
  obtain ⟨w2, h1, h2⟩ := C75_commit hd hout hg he
  exact ⟨w2, _, h1, h2, Ne.symm hne, rfl⟩

/-- **C76.** What does hold: `branch` and `tag` leave all owners and permissions as they are. -/
theorem C76_edit_partial {d d' : Disk} (hd : Reachable E d) {cwd : Str} (hout : E.Outside (Path.abs cwd (lit "."))) {w : OpenWs} (hg : Gets E d cwd (lit ".") w)
    {es : List Edit} {s : TS} (he : Exec E f (editCmd E cwd es) d (.ok s) d') (w1 : OpenWs) : d'.top w1 = d.top w1 := by
  have hes := plain_of_edit he
  obtain ⟨g, hs⟩ := steady_reachable hd
  obtain ⟨u, p, T, hF⟩ := found_of_gets hs hout hg
  by_cases hne : es = []
  · subst hne
    obtain ⟨_, _, ⟨_, rfl⟩ | ⟨T', b, _, _, _, rfl⟩⟩ := wpm_exec (editCmd_wp (f := f) hF.opens hes) he
    · rfl
    · rfl
  · obtain ⟨_, _, _, _, _, rfl, _⟩ := after_edit hs hne hF he
    rfl

/-! ## The same history seen by another user -/

theorem past_as {o : Nat} {d d' : Disk} (h : Past E f d d') : Past (E.as o) f d d' := by
  induction h with
  | refl => exact .refl
  | step _ hp hh ih => exact .step ih (plain_as hp) hh

theorem tidy_as {o : Nat} {w w' : World} (h : Sys.Tidy E f w w') : Sys.Tidy (E.as o) f w w' := by
  induction h with
  | refl => exact .refl _
  | step _ hn hm ih =>
    refine .step ih ?_ hm
    cases hn with
    | start i c hi =>
      have : c.prog E = c.prog (E.as o) := by cases c <;> rfl
      rw [this]
      exact .start i c hi
    | run hp hk hs => exact .run hp hk hs
    | kill i => exact .kill i
    | outside h => exact .outside h

theorem legacy_as {o : Nat} {d : Disk} (h : Legacy E d) : Legacy (E.as o) d := by
  obtain ⟨f, w0, w, h1, h2, h3, h4, h5⟩ := h
  exact ⟨f, w0, w, h1, h2, h3, tidy_as h4, h5⟩

/-- Which disks can be reached does not depend on who asks: all theorems about `Reachable` disks hold for the commands of every user. -/
theorem reachable_as {o : Nat} {d : Disk} (h : Reachable E d) : Reachable (E.as o) d := by
  obtain ⟨f, d0, h1, h2, h3⟩ := h
  exact ⟨f, d0, h1, legacy_as h2, past_as h3⟩

theorem live_as {o : Nat} {d : Disk} {cwd : Str} {w : OpenWs} {u p : UID} {ls : List UID} (h : Live E d cwd w u p ls) : Live (E.as o) d cwd w u p ls := by
  obtain ⟨d0, h1, h2⟩ := h.past
  have ho := h.opens
  exact ⟨⟨d0, h1, past_as h2⟩, ⟨ho.out, ho.link, ho.path, ho.info, ho.mount, ho.dir, ho.tree, ho.head, ho.stored⟩, h.mnt, h.link, h.mdir, h.path⟩

end

/-! ## Examples -/
namespace Story

/-- The file `f`, in a workspace that is closed to everybody but the user 7. -/
def shut : Content := fun p => if p = [] then some (.dir false ⟨0o700, 7⟩) else if p = [lit "f"] then some (.file (lit "x")) else none

theorem closed : ∃ d w u root, Live E0 d cw w u root [root] ∧ d.used.length ≤ 5 ∧ MayCommit w u ∧ d.top w = some (.dir ⟨0o700, 7⟩) := by
  obtain ⟨d, w, u, root, hB⟩ := begun
  obtain ⟨h1, h2, h3⟩ := live_write hB.live shut
  refine ⟨_, w, u, root, h1, by rw [h2]; exact hB.used, hB.may, ?_⟩
  simp only [Disk.top, Disk.shows, h1.mnt, List.map_cons, h3, view, topEnt, shut, if_pos]

/-- `C75_init`: the user 7 creates `/w`. -/
example : ∃ d' w' w, Exec (E0.as 7) Faults.none (initCmd (E0.as 7) (Path.abs cw (lit ".")) (lit "main")) disk0 (.ok w') d' ∧ Gets (E0.as 7) d' cw (lit ".") w ∧
    d'.top w = some (.dir (Attr.of 7)) := by
  obtain ⟨d1, r, w, u, root, he, _⟩ := live_init (E := E0.as 7) (d := disk0) ⟨disk0, untouched0, .refl⟩ (cwd := cw) (branch := lit "main") outw rfl (fits (by decide)) (by decide)
  obtain ⟨w, h1, h2⟩ := C75_init (E := E0.as 7) (reachable_untouched (f := Faults.none) rfl untouched0 .refl) outw he
  exact ⟨d1, r, w, he, h1, h2⟩

/-- `C75_others_init`, `C75_others_clone`: the user 9 creates `/x` or clones `/w` to it; `/v` stays as it was. -/
example : ∃ d w1 w2 d4 d5, Gets (E0.as 9) d cw (lit ".") w1 ∧ Gets (E0.as 9) d cv (lit ".") w2 ∧
    (∃ r, Exec (E0.as 9) Faults.none (cloneCmd (E0.as 9) cw (lit ".") (Path.abs (lit "/x") (lit "."))) d (.ok r) d4) ∧ d4.top w2 = d.top w2 ∧
    (∃ r, Exec (E0.as 9) Faults.none (initCmd (E0.as 9) (Path.abs (lit "/x") (lit ".")) (lit "main")) d (.ok r) d5) ∧ d5.top w2 = d.top w2 := by
  obtain ⟨d, w, u, root, d', w', u', d3, w1, w2, u2, hB, hS, hT⟩ := third
  have h9 := live_as (o := 9) hT.live2
  have h8 := live_as (o := 9) hT.live1
  have := hT.used
  obtain ⟨d4, r, _, _, he, _⟩ := live_clone (E := E0.as 9) neat h8 outx (hT.free _ (by decide) (by decide)) (fits (by simp)) (by omega)
  obtain ⟨d5, r', _, _, _, he', _⟩ := live_init (E := E0.as 9) (d := d3) h8.past (cwd := lit "/x") (branch := lit "main") outx (hT.free _ (by decide) (by decide)) (fits (by decide)) (by omega)
  exact ⟨d3, w1, w2, d4, d5, h8.gets, h9.gets, ⟨r, he⟩, C75_others_clone h8.past.reachable outw outv outx h8.gets h9.gets he, ⟨r', he'⟩,
    C75_others_init h8.past.reachable outx outv h9.gets he'⟩

/-- `C75_commit`, `C76_violated_commit`, `C76_violated_owner`: the user 9 commits in the closed workspace of the user 7. It is now open
to all and belongs to 9. -/
example : ∃ d w d' w2, Reachable (E0.as 9) d ∧ Gets (E0.as 9) d cw (lit ".") w ∧ d.top w = some (.dir ⟨0o700, 7⟩) ∧
    (∃ r, Exec (E0.as 9) Faults.none (commitCmd (E0.as 9) cw ci) d (.ok r) d') ∧ Gets (E0.as 9) d' cw (lit ".") w2 ∧ d'.top w2 = some (.dir ⟨0o755, 9⟩) := by
  obtain ⟨d, w, u, root, hL, hus, hmay, ht⟩ := closed
  have hL9 := live_as (o := 9) hL
  obtain ⟨d', r, _, _, he, _⟩ := live_commit (E := E0.as 9) neat hL9 hmay (fits (by simp)) (by omega) ci
  obtain ⟨w2, h1, h2⟩ := C75_commit hL9.past.reachable outw hL9.gets he
  exact ⟨d, w, d', w2, hL9.past.reachable, hL9.gets, ht, ⟨r, he⟩, h1, h2⟩

/-- `C75_clone`, `C76_violated_clone`: the user 9 clones it. The clone is theirs and open, the source stays closed. -/
example : ∃ d w d' w2, Reachable (E0.as 9) d ∧ Gets (E0.as 9) d cw (lit ".") w ∧ d.top w = some (.dir ⟨0o700, 7⟩) ∧
    (∃ r, Exec (E0.as 9) Faults.none (cloneCmd (E0.as 9) cw (lit ".") (Path.abs cv (lit "."))) d (.ok r) d') ∧ Gets (E0.as 9) d' cv (lit ".") w2 ∧
    d'.top w2 = some (.dir ⟨0o755, 9⟩) ∧ d'.top w = some (.dir ⟨0o700, 7⟩) := by
  obtain ⟨d, w, u, root, hB⟩ := begun
  obtain ⟨h1, h2, h3⟩ := live_write hB.live shut
  have ht : (d.put u shut).top w = some (.dir ⟨0o700, 7⟩) := by
    simp only [Disk.top, Disk.shows, h1.mnt, List.map_cons, h3, view, topEnt, shut, if_pos]
  have hf : (d.put u shut).user (Path.abs cv (lit ".")) = .none := by
    have hst : w.tree.abs.Has u := by obtain ⟨_, n, hn, _⟩ := hB.live.opens.head; exact ⟨n, hn⟩
    obtain ⟨c', hc'⟩ := hB.live.opens.stored u hst
    simp only [Disk.put, hc']
    exact hB.free _ vw
  have hL9 := live_as (o := 9) h1
  have := hB.used
  obtain ⟨d3, r, _, _, he, _⟩ := live_clone (E := E0.as 9) neat hL9 outv hf (fits (by simp)) (by rw [h2]; omega)
  obtain ⟨⟨w2, h4, h5⟩, h6⟩ := C75_clone hL9.past.reachable outw outv hL9.gets he
  exact ⟨_, w, d3, w2, hL9.past.reachable, hL9.gets, ht, ⟨r, he⟩, h4, h5, (h6 (by rw [hL9.mdir]; simp)).trans ht⟩

/-- `C75_checkout`, `C75_others_checkout`: the user 9 checks HEAD out in the clone `/v`, which is then theirs; `/w` is not. -/
example : ∃ d w1 d' w2, Gets (E0.as 9) d cw (lit ".") w1 ∧ (∃ r, Exec (E0.as 9) Faults.none (checkoutCmd (E0.as 9) cv (lit "HEAD")) d (.ok r) d') ∧
    Gets (E0.as 9) d' cv (lit ".") w2 ∧ d'.top w2 = some (.dir (Attr.of 9)) ∧ d'.top w1 = d.top w1 := by
  obtain ⟨d, w, u, root, d', w', u', d3, w1, w2, u2, hB, hS, hT⟩ := third
  have h9 := live_as (o := 9) hT.live2
  have h8 := live_as (o := 9) hT.live1
  have := hT.used
  obtain ⟨d4, r, w2', u2', he, _⟩ := live_checkout (E := E0.as 9) neat plainHEAD h9 (v := u) (kt := .commit) .head h9.path (fits (by simp)) (by omega)
  obtain ⟨w5, h1, h2⟩ := C75_checkout h9.past.reachable outv h9.gets he
  exact ⟨d3, w1, d4, w5, h8.gets, ⟨r, he⟩, h1, h2, C75_others_checkout h9.past.reachable outv outw h9.gets h8.gets hT.mount he⟩

/-- `C75_others_commit`: the user 9 commits in `/w`; the clone `/v` keeps its owner and permissions. -/
example : ∃ d w1 w2 d', Gets (E0.as 9) d cw (lit ".") w1 ∧ Gets (E0.as 9) d cv (lit ".") w2 ∧ (∃ r, Exec (E0.as 9) Faults.none (commitCmd (E0.as 9) cw ci) d (.ok r) d') ∧
    d'.top w2 = d.top w2 := by
  obtain ⟨d, w, u, root, d', w', u', d3, w1, w2, u2, hB, hS, hT⟩ := third
  have h9 := live_as (o := 9) hT.live2
  have h8 := live_as (o := 9) hT.live1
  have := hT.used
  obtain ⟨d4, r, _, _, he, _⟩ := live_commit (E := E0.as 9) neat h8 hT.may (fits (by simp)) (by omega) ci
  exact ⟨d3, w1, w2, d4, h8.gets, h9.gets, ⟨r, he⟩, C75_others_commit h8.past.reachable outw outv h8.gets h9.gets hT.mount.symm he⟩

/-- `C76_edit_partial`: a tag in `/w`. -/
example : ∃ d w d', Gets E0 d cw (lit ".") w ∧ (∃ s, Exec E0 Faults.none (editCmd E0 cw [.addTag (lit "v1") (lit "HEAD") false]) d (.ok s) d') ∧ d'.top w = d.top w := by
  obtain ⟨d, w, u, root, d', s, hB, he⟩ := tagged
  exact ⟨d, w, d', hB.live.gets, ⟨s, he⟩, C76_edit_partial hB.live.past.reachable outw hB.live.gets he w⟩

end Story
end Verif
