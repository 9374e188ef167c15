import Verif.Props.Aside
import Verif.Props.TwoRoots
import Verif.Props.Between
/-!
# A data directory that is moved (C109)

The user gives the data directory another name, or copies it to another place or machine: all that is in it stays, the mounts are gone, and
from then on commands are given the new path with `--data-root` (pkg/commands/options/global.go:47). Nothing in the directory says
where it is: the records name spaces, layers and mounts by their IDs (pkg/manager/manager_default.go:115-123, :411-435). But the link of a
workspace is absolute and begins with the data directory (pkg/mounts/mount.go:73, :130-133), and so does every layer in the mount options.
-/
set_option autoImplicit false
namespace Verif
open M TS Json

/-- The data directory is at `r`. -/
@[reducible] def Env.at (E : Env) (r : Str) : Env := { E with root := r }

/-- The data directory is moved: nothing is mounted any more, and the paths of the user are as `us` says. -/
@[reducible] def Disk.moved (d : Disk) (us : Str → UEnt) : Disk := { d with mnt := fun _ => none, user := us }

section
variable {E : Env} {f : Faults} {r : Str}

theorem steady_at {d : Disk} {g : Str → Option TS} (h : Steady E d g) : Steady (E.at r) d g :=
  ⟨h.tracked, h.tree, h.saved, h.reach, h.stored, h.keys, h.info, h.mnt, h.heads⟩

/-- What the moved data directory is like. -/
theorem steady_relocated {d : Disk} {g : Str → Option TS} (h : Steady E d g) (r : Str) (us : Str → UEnt) : ∃ g', Steady (E.at r) (d.moved us) g' ∧ Grew E d g (d.moved us) g' := by
  obtain ⟨g1, s1, k1⟩ := steady_past (f := Faults.none) rfl h
    (.step (o := 0) (.step (o := 0) .refl (a := .reboot) trivial .reboot) (a := .files us) trivial .files)
  exact ⟨g1, steady_at s1, k1⟩

theorem opens_relocated {d : Disk} {cwd path : Str} {w : OpenWs} {u p : UID} (h : Opens E d cwd path w u p) {us : Str → UEnt} {t cwd2 path2 : Str}
    (hout : (E.at r).Outside (Path.abs cwd2 path2)) (h2 : us (Path.abs cwd2 path2) = .link t) (ht : mountIDOf r cwd2 path2 (some t) = .ok w.mount.id) :
    Opens (E.at r) (d.moved us) cwd2 path2 (w.moveTo (Path.abs cwd2 path2)) u p :=
  ⟨hout, ⟨t, h2, ht⟩, rfl, h.info, h.mount, h.dir, h.tree, h.head, h.stored⟩

theorem moveTo_same {d : Disk} {cwd path : Str} {w : OpenWs} {u p : UID} (h : Opens E d cwd path w u p) : w.moveTo (Path.abs cwd path) = w := by
  unfold OpenWs.moveTo
  rw [← h.path]

/-- **C109 (violated).** The data directory is moved, and the links of the workspaces are as they were. Every command in every workspace is refused, and changes
nothing, even if calls fail. `k` is what the command does with the workspace. -/
theorem C109_violated_refused {d d' : Disk} (hd : Reachable E d) (haw : (E.at r).Away E) {cwd path : Str} (hout1 : (E.at r).Outside (Path.abs cwd path))
    (hout2 : E.Outside (Path.abs cwd path)) {w : OpenWs} (hg : Gets E d cwd path w) (habs : ∀ t, d.user (Path.abs cwd path) = .link t → Path.isAbs t = true) :
    (∀ α (k : OpenWs → M α) x, Exec (E.at r) f (M.bind (getWorkspace (E.at r) cwd path) k) (d.moved d.user) x d' → (∃ e, x = .err e) ∧ d' = d.moved d.user) ∧
    (∀ ci x, path = lit "." → Exec (E.at r) f (commitCmd (E.at r) cwd ci) (d.moved d.user) x d' → (∃ e, x = .err e) ∧ d' = d.moved d.user) ∧
    (∀ key x, path = lit "." → Exec (E.at r) f (checkoutCmd (E.at r) cwd key) (d.moved d.user) x d' → (∃ e, x = .err e) ∧ d' = d.moved d.user) ∧
    (∀ es x, path = lit "." → Exec (E.at r) f (editCmd (E.at r) cwd es) (d.moved d.user) x d' → (∃ e, x = .err e) ∧ d' = d.moved d.user) ∧
    ∀ target x, Exec (E.at r) f (cloneCmd (E.at r) cwd path target) (d.moved d.user) x d' → (∃ e, x = .err e) ∧ d' = d.moved d.user :=
  C108_refused (d1 := d.moved d.user) hd rfl haw hout1 hout2 hg habs

/-- **C109.** The data directory is moved and the user makes a link that leads to the mount of a workspace at its new place, where the workspace was or anywhere else.
The path is then this workspace: it has the same ID, branch and working layer, and the same history. -/
theorem C109_relinked {d : Disk} (hd : Reachable E d) {cwd path cwd2 path2 : Str} (hout : E.Outside (Path.abs cwd path)) (hout2 : (E.at r).Outside (Path.abs cwd2 path2))
    {w : OpenWs} (hg : Gets E d cwd path w) {us : Str → UEnt} (h2 : us (Path.abs cwd2 path2) = .link ((E.at r).mountPath w.mount.id.base32)) :
    Gets (E.at r) (d.moved us) cwd2 path2 (w.moveTo (Path.abs cwd2 path2)) ∧ (Path.abs cwd2 path2 = Path.abs cwd path → Gets (E.at r) (d.moved us) cwd2 path2 w) := by
  obtain ⟨g, hs⟩ := steady_reachable hd
  obtain ⟨u, p, T, hF⟩ := found_of_gets hs hout hg
  have h := gets_of_opens (opens_relocated (r := r) hF.opens hout2 h2 (leads_mountPath (E := E.at r) cwd2 path2 w.mount.id))
  refine ⟨h, fun e => ?_⟩
  rw [e, moveTo_same hF.opens] at h
  exact h

/-- **C109.** All commits move along. Take any layer of the history of a workspace; what it holds is `files (ls.map d.content)`. The data directory is moved and
the links are made again, or not. Later - after any commands, writes and restarts with the new path - a workspace of the same history checks out the ID of the layer.
If the mount options, with the new path in them, fit and its link is in place this succeeds, and it shows exactly those files. -/
theorem C109_commits {d d2 d3 : Disk} (hd : Reachable E d) {cwd path : Str} (hout : E.Outside (Path.abs cwd path)) {w : OpenWs} (hg : Gets E d cwd path w)
    {v : UID} {ls : List UID} (hv : w.tree.abs.Path v ls) {us : Str → UEnt} {f2 : Faults} (hio : f2.io = false) (hp : Past (E.at r) f2 (d.moved us) d2)
    {cwd' : Str} (hout' : (E.at r).Outside (Path.abs cwd' (lit "."))) {w' : OpenWs} (hg' : Gets (E.at r) d2 cwd' (lit ".") w') (hsp : w'.spaceID = w.spaceID)
    (hfit : ∀ ls, w'.tree.abs.Path v ls → (E.at r).Fits ls.length)
    (hlink : ∃ n m c, d2.user w'.ws.path = .link ((E.at r).mountPath n) ∧ d2.mdir n = some m ∧ m.merged = some c)
    {x : Res CErr (OpenWs × OpenWs)} (he : Exec (E.at r) Faults.none (checkoutCmd (E.at r) cwd' v.hex) d2 x d3) :
    (∃ y, x = .ok y) ∧ ∃ w3 u3, Gets (E.at r) d3 cwd' (lit ".") w3 ∧ w3.ws.HeadAt w3.tree u3 v ∧ d3.Mounted w3 ∧ d3.lists w3 = files (ls.map d.content) := by
  obtain ⟨g, hs⟩ := steady_reachable hd
  obtain ⟨u, p, T, hF⟩ := found_of_gets hs hout hg
  obtain ⟨g1, s1, k1⟩ := steady_relocated hs r us
  obtain ⟨T1, c1, c0⟩ := k1.trees _ T hF.tree
  have hn : w'.spaceDir = w.spaceDir := by
    obtain ⟨g2, s2, _⟩ := steady_past hio s1 hp
    obtain ⟨u', p', T', hF'⟩ := found_of_gets s2 hout' hg'
    rw [hF'.opens.dir, hF.opens.dir, hsp]
  exact aside_again s1 c1 (extends_path c0 (comesBack_path hF.back hv)) (fun x hx => ⟨path_stored hF.opens hv x hx, nofun⟩) hio hp hout' hg' hn hfit hlink he

/-- **C109.** So does work that was not committed: what a workspace showed before the data directory was moved comes back with a checkout of its working layer. -/
theorem C109_work {d d2 d3 : Disk} (hd : Reachable E d) {cwd path : Str} (hout : E.Outside (Path.abs cwd path)) {w : OpenWs} (hg : Gets E d cwd path w) (hm : d.Mounted w)
    {u p : UID} (hh : w.ws.HeadAt w.tree u p) {us : Str → UEnt} {f2 : Faults} (hio : f2.io = false) (hp : Past (E.at r) f2 (d.moved us) d2)
    {cwd' : Str} (hout' : (E.at r).Outside (Path.abs cwd' (lit "."))) {w' : OpenWs} (hg' : Gets (E.at r) d2 cwd' (lit ".") w') (hsp : w'.spaceID = w.spaceID)
    (hfit : ∀ ls, w'.tree.abs.Path u ls → (E.at r).Fits ls.length)
    (hlink : ∃ n m c, d2.user w'.ws.path = .link ((E.at r).mountPath n) ∧ d2.mdir n = some m ∧ m.merged = some c)
    {x : Res CErr (OpenWs × OpenWs)} (he : Exec (E.at r) Faults.none (checkoutCmd (E.at r) cwd' u.hex) d2 x d3) :
    (∃ y, x = .ok y) ∧ ∃ w3 u3, Gets (E.at r) d3 cwd' (lit ".") w3 ∧ w3.ws.HeadAt w3.tree u3 u ∧ d3.Mounted w3 ∧ d3.lists w3 = d.lists w := by
  obtain ⟨g, hs⟩ := steady_reachable hd
  obtain ⟨T, hF⟩ := gets_found hs hout hg hh
  obtain ⟨ls0, hp0, hl0⟩ := lists_found hs hF hm
  have hfull : w.tree.abs.Path u (u :: ls0) := by
    obtain ⟨_, n, hn, hpp⟩ := hh
    exact .step hn hpp hp0
  have := C109_commits hd hout hg hfull hio hp hout' hg' hsp hfit hlink he
  rw [hl0]
  exact this

/-- **C109.** A commit in a workspace whose link is made again: if it succeeds it holds the files the workspace showed before the data directory was moved, and the
workspace shows them again. -/
theorem C109_commit {d d' : Disk} (hd : Reachable E d) {cwd path cwd2 : Str} (hout : E.Outside (Path.abs cwd path)) (hout2 : (E.at r).Outside (Path.abs cwd2 (lit ".")))
    {w : OpenWs} (hg : Gets E d cwd path w) (hm : d.Mounted w) {u p : UID} (hh : w.ws.HeadAt w.tree u p) {us : Str → UEnt}
    (h2 : us (Path.abs cwd2 (lit ".")) = .link ((E.at r).mountPath w.mount.id.base32)) {ci : CommitInfo} {x : OpenWs × OpenWs}
    (he : Exec (E.at r) f (commitCmd (E.at r) cwd2 ci) (d.moved us) (.ok x) d') :
    ∃ w2 u2, Gets (E.at r) d' cwd2 (lit ".") w2 ∧ SameWs w w2 ∧ w2.ws.HeadAt w2.tree u2 u ∧ CommitEffect w.tree.abs w.ws u u2 ci w2.tree.abs ∧
      d'.Mounted w2 ∧ d'.lists w2 = d.lists w := by
  obtain ⟨g, hs⟩ := steady_reachable hd
  obtain ⟨T, hF⟩ := gets_found hs hout hg hh
  obtain ⟨ls0, hp0, hl0⟩ := lists_found hs hF hm
  obtain ⟨g1, s1, _⟩ := steady_relocated hs r us
  have ho := opens_relocated (r := r) hF.opens hout2 h2 (leads_mountPath (E := E.at r) cwd2 (lit ".") w.mount.id)
  obtain ⟨T1, hF1⟩ := gets_found s1 hout2 (gets_of_opens ho) ho.head
  obtain ⟨_, _, u2, ls, g', w2, _, _, _, k3, k4, k5, k6, k7, k8, k9, k10, _⟩ := after_commit s1 hF1 he
  obtain rfl : ls = u :: ls0 := by
    obtain ⟨_, n, hn, hpp⟩ := hh
    exact Ws.path_unique k3 (.step hn hpp hp0)
  refine ⟨w2, u2, gets_of_opens k4, ⟨k5, k7, k6⟩, k4.head, ?_, by rw [Disk.Mounted, k10.mnt]; simp, ?_⟩
  · rw [k9]
    obtain ⟨_, n, hn, _⟩ := hh
    exact commitEffect ⟨n, hn⟩ k8
  · rw [lists_fresh k10 (path_stored ho k3), hl0]
    rfl

/-- **C109.** It succeeds, on a working system, just if it would have succeeded before and the mount options fit with the new path in them. -/
theorem C109_commit_accepted_iff {d d' : Disk} (hd : Reachable E d) {cwd path cwd2 : Str} (hout : E.Outside (Path.abs cwd path))
    (hout2 : (E.at r).Outside (Path.abs cwd2 (lit "."))) {w : OpenWs} (hg : Gets E d cwd path w) {u p : UID} (hh : w.ws.HeadAt w.tree u p) {us : Str → UEnt}
    (h2 : us (Path.abs cwd2 (lit ".")) = .link ((E.at r).mountPath w.mount.id.base32)) (hmd : ∃ m c, d.mdir w.mount.id.base32 = some m ∧ m.merged = some c)
    {ls : List UID} (hls : w.tree.abs.Path u ls) {ci : CommitInfo} {x : Res CErr (OpenWs × OpenWs)}
    (he : Exec (E.at r) Faults.none (commitCmd (E.at r) cwd2 ci) (d.moved us) x d') :
    (∃ y, x = .ok y) ↔ MayCommit w u ∧ (E.at r).Fits ls.length := by
  obtain ⟨g, hs⟩ := steady_reachable hd
  obtain ⟨T, hF⟩ := gets_found hs hout hg hh
  obtain ⟨g1, s1, _⟩ := steady_relocated hs r us
  have ho := opens_relocated (r := r) hF.opens hout2 h2 (leads_mountPath (E := E.at r) cwd2 (lit ".") w.mount.id)
  obtain ⟨m, c, hmd, hc⟩ := hmd
  have key := fun hfit => accepted_of_steady s1 hout2 (gets_of_opens ho) ho.head hls hfit ⟨_, m, c, h2, hmd, hc⟩ he
  refine ⟨fun hx => ?_, fun hx => (key hx.2).2 hx.1⟩
  have hfit : (E.at r).Fits ls.length := by
    obtain ⟨y, rfl⟩ := hx
    obtain ⟨T1, hF1⟩ := gets_found s1 hout2 (gets_of_opens ho) ho.head
    obtain ⟨_, _, _, ls', _, _, _, _, _, k3, _, _, _, _, _, _, k10, _⟩ := after_commit s1 hF1 he
    rw [Ws.path_unique hls k3]
    exact k10.fits
  exact ⟨(key hfit).1 hx, hfit⟩

/-- **C109 (violated).** The path of the data directory is in the mount options, once for every layer. Where it is too long for a commit that was checked out before the
move, the commit is there but nobody can check it out, whatever is done first. -/
theorem C109_violated_long {d d2 d3 : Disk} (hd : Reachable E d) {cwd path : Str} (hout : E.Outside (Path.abs cwd path)) {w : OpenWs} (hg : Gets E d cwd path w)
    {v : UID} {ls : List UID} (hv : w.tree.abs.Path v ls) (hno : ¬ (E.at r).Fits ls.length) {us : Str → UEnt} {f2 : Faults} (hio : f2.io = false)
    (hp : Past (E.at r) f2 (d.moved us) d2) {cwd' : Str} (hout' : (E.at r).Outside (Path.abs cwd' (lit "."))) {w' : OpenWs}
    (hg' : Gets (E.at r) d2 cwd' (lit ".") w') (hsp : w'.spaceID = w.spaceID) (x : OpenWs × OpenWs) :
    w'.tree.abs.Path v ls ∧ ¬ Exec (E.at r) f (checkoutCmd (E.at r) cwd' v.hex) d2 (.ok x) d3 := by
  obtain ⟨g, hs⟩ := steady_reachable hd
  obtain ⟨u, p, T, hF⟩ := found_of_gets hs hout hg
  obtain ⟨g1, s1, k1⟩ := steady_relocated hs r us
  obtain ⟨T1, c1, c0⟩ := k1.trees _ T hF.tree
  obtain ⟨g2, s2, k2⟩ := steady_past hio s1 hp
  obtain ⟨u', p', T', hF'⟩ := found_of_gets s2 hout' hg'
  have hn : w'.spaceDir = w.spaceDir := by rw [hF'.opens.dir, hF.opens.dir, hsp]
  obtain ⟨T2, c2, c3⟩ := k2.trees _ T1 c1
  obtain rfl : T' = T2 := by have := hF'.tree; rw [hn, c2] at this; exact (Option.some.inj this).symm
  have hpath := extends_path c3 (extends_path c0 (comesBack_path hF.back hv))
  have hpath' := path_back hF'.back hpath
  refine ⟨hpath', fun he => ?_⟩
  obtain ⟨_, v', kt, _, ls', _, _, b1, _, _, _, b5, _, _, _, _, _, _, b12⟩ := after_checkout s2 hF' he
  have hhas : w'.tree.abs.Has v := path_has hpath' v (by cases hpath' <;> simp)
  obtain ⟨rfl, _⟩ := Ws.resolves_unique b1 (.id (hex_ne_head v) (hex_spells v) hhas)
  obtain rfl := Ws.path_unique b5 hpath'
  exact hno b12.fits
end
end Verif
