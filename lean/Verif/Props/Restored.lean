import Verif.Props.Moved
import Verif.Props.Refused
import Verif.Props.Later
/-!
# A backup that is restored (C110)

The user copies the data directory at one moment, goes on working, and later puts the copy in its place again. The paths of the user
are those of the later time: the copy has the data directory only.
-/
set_option autoImplicit false
namespace Verif
open M TS Json

section
variable {E : Env} {f : Faults}

/-- **C110.** All that is proved of data directories holds of one that is restored. -/
theorem C110_reachable {d : Disk} (hd : Reachable E d) (us : Str → UEnt) : Reachable E (d.moved us) := by
  obtain ⟨f0, d0, h1, h2, h3⟩ := hd
  exact ⟨f0, d0, h1, h2, .step (o := 0) (.step (o := 0) h3 (a := .reboot) trivial .reboot) (a := .files us) trivial .files⟩

/-- **C110.** The copy may be made while commands run, if it is of one moment (a snapshot of the file system). Any number of commands run at once and do not write the same file at the same moment; calls may fail, commands
may be killed. If no command is just then between removing an old mount and its record, the rest of C110 holds of the copy. -/
theorem C110_snapshot {d : Disk} (hd : Legacy E d) (hf : f.rep = false) {v : World} (h : Sys.Apart E f ⟨d, fun _ => none⟩ v)
    (hm : ∀ n b i, v.disk.info n = some b → unmarshalInfo b = some i → v.disk.mdir n ≠ none) (us : Str → UEnt) :
    Reachable E v.disk ∧ Reachable E (v.disk.moved us) := by
  have hr := reachable_legacy (C77_apart hd hf h hm)
  exact ⟨hr, C110_reachable hr us⟩

/-- **C110.** In particular at such a moment of a single command. -/
theorem C110_snapshot_one {d d' : Disk} (hd : Legacy E d) (hf : f.rep = false) {c : Command} (h : Stops E f (c.prog E) d d')
    (hm : ∀ n b i, d'.info n = some b → unmarshalInfo b = some i → d'.mdir n ≠ none) (us : Str → UEnt) : Reachable E d' ∧ Reachable E (d'.moved us) := by
  have hr := reachable_legacy (C77_killed hd hf h hm)
  exact ⟨hr, C110_reachable hr us⟩

/-- A path that leads to a mount that is not there is no workspace. -/
theorem no_mount_no_ws {d : Disk} (hd : Reachable E d) {cwd path : Str} (hout : E.Outside (Path.abs cwd path)) {i : UID}
    (hl : d.user (Path.abs cwd path) = .link (E.mountPath i.base32)) (hm : d.mdir i.base32 = none) : ∀ w, ¬ Gets E d cwd path w := by
  intro w hg
  obtain ⟨g, hs⟩ := steady_reachable hd
  obtain ⟨u, p, T, hF⟩ := found_of_gets hs hout hg
  obtain ⟨t, h1, h2⟩ := hF.opens.link
  rw [hl] at h1
  cases h1
  rw [leads_mountPath] at h2
  have : i = w.mount.id := Res.ok.inj h2
  subst this
  exact hF.mdir hm

/-- A command there fails and changes nothing. -/
theorem no_mount_refused {α : Type} {d d' : Disk} (hd : Reachable E d) {cwd path : Str} (hout : E.Outside (Path.abs cwd path)) {i : UID}
    (hl : d.user (Path.abs cwd path) = .link (E.mountPath i.base32)) (hm : d.mdir i.base32 = none) {k : OpenWs → M α} {x : Res CErr α}
    (he : Exec E f (M.bind (getWorkspace E cwd path) k) d x d') : (∃ e, x = .err e) ∧ d' = d := by
  obtain ⟨g, hs⟩ := steady_reachable hd
  obtain ⟨a, d1, h1, h2⟩ := exec_bind he
  have := wpm_exec (opens_of_steady' hs hout fun t ht hn => by
    rw [hl] at ht
    cases ht
    exact absurd (leads_mountPath cwd path i) (hn i)) h1
  cases a with
  | ok w =>
    obtain ⟨rfl, u, p, g1, _⟩ := this
    exact absurd (gets_of_opens g1) (no_mount_no_ws hd hout hl hm w)
  | err e =>
    obtain ⟨rfl, _⟩ := this
    cases h2
    exact ⟨⟨e, rfl⟩, rfl⟩
  | panic => exact this.elim
  | diverge => exact this.elim

/-- **C110.** A workspace whose link is the same as when the backup was made, or was made again, is the same workspace as then, with the same history: all that came
later is undone. -/
theorem C110_restored {d : Disk} (hd : Reachable E d) {cwd path : Str} (hout : E.Outside (Path.abs cwd path)) {w : OpenWs} (hg : Gets E d cwd path w) {us : Str → UEnt}
    (hl : us (Path.abs cwd path) = d.user (Path.abs cwd path) ∨ us (Path.abs cwd path) = .link (E.mountPath w.mount.id.base32)) :
    Gets E (d.moved us) cwd path w := by
  obtain ⟨g, hs⟩ := steady_reachable hd
  obtain ⟨u, p, T, hF⟩ := found_of_gets hs hout hg
  have ho := hF.opens
  refine gets_of_opens (u := u) (p := p) ⟨ho.out, ?_, ho.path, ho.info, ho.mount, ho.dir, ho.tree, ho.head, ho.stored⟩
  rcases hl with hl | hl
  · obtain ⟨t, h1, h2⟩ := ho.link
    exact ⟨t, hl.trans h1, h2⟩
  · exact ⟨_, hl, leads_mountPath cwd path w.mount.id⟩

/-- **C110.** Every commit of the backup has the files it had. Later - after any commands, writes and restarts - a workspace of the same history checks out the ID of a layer, and
shows what the layer held when the backup was made, whatever was done to it between backup and restoring. -/
theorem C110_commits {d d2 d3 : Disk} (hd : Reachable E d) {cwd path : Str} (hout : E.Outside (Path.abs cwd path)) {w : OpenWs} (hg : Gets E d cwd path w)
    {v : UID} {ls : List UID} (hv : w.tree.abs.Path v ls) {us : Str → UEnt} {f2 : Faults} (hio : f2.io = false) (hp : Past E f2 (d.moved us) d2)
    {cwd' : Str} (hout' : E.Outside (Path.abs cwd' (lit "."))) {w' : OpenWs} (hg' : Gets E d2 cwd' (lit ".") w') (hsp : w'.spaceID = w.spaceID)
    (hfit : ∀ ls, w'.tree.abs.Path v ls → E.Fits ls.length)
    (hlink : ∃ n m c, d2.user w'.ws.path = .link (E.mountPath n) ∧ d2.mdir n = some m ∧ m.merged = some c)
    {x : Res CErr (OpenWs × OpenWs)} (he : Exec E Faults.none (checkoutCmd E cwd' v.hex) d2 x d3) :
    (∃ y, x = .ok y) ∧ ∃ w3 u3, Gets E d3 cwd' (lit ".") w3 ∧ w3.ws.HeadAt w3.tree u3 v ∧ d3.Mounted w3 ∧ d3.lists w3 = files (ls.map d.content) :=
  C109_commits (r := E.root) hd hout hg hv hio hp hout' hg' hsp hfit hlink he

/-- **C110 (violated).** A workspace has made a commit or a checkout since the backup. Its link leads to a mount that the backup does not know: when the backup is restored the path
is no workspace, and every command there fails and changes nothing. -/
theorem C110_violated_lost {d d1 d2 : Disk} (hd : Reachable E d) {cwd : Str} (hout : E.Outside (Path.abs cwd (lit "."))) {w : OpenWs} (hg : Gets E d cwd (lit ".") w)
    (hc : (∃ ci x, Exec E f (commitCmd E cwd ci) d (.ok x) d1) ∨ ∃ key x, Exec E f (checkoutCmd E cwd key) d (.ok x) d1) :
    (∀ w', ¬ Gets E (d.moved d1.user) cwd (lit ".") w') ∧
    (∀ ci x, Exec E f (commitCmd E cwd ci) (d.moved d1.user) x d2 → (∃ e, x = .err e) ∧ d2 = d.moved d1.user) ∧
    (∀ key x, Exec E f (checkoutCmd E cwd key) (d.moved d1.user) x d2 → (∃ e, x = .err e) ∧ d2 = d.moved d1.user) ∧
    ∀ es x, Exec E f (editCmd E cwd es) (d.moved d1.user) x d2 → (∃ e, x = .err e) ∧ d2 = d.moved d1.user := by
  obtain ⟨g, hs⟩ := steady_reachable hd
  obtain ⟨u, p, T, hF⟩ := found_of_gets hs hout hg
  obtain ⟨i, hi, hl⟩ : ∃ i : UID, d.mdir i.base32 = none ∧ d1.user (Path.abs cwd (lit ".")) = .link (E.mountPath i.base32) := by
    rcases hc with ⟨ci, x, he⟩ | ⟨key, x, he⟩
    · obtain ⟨_, _, u2, ls, g', w2, _, _, _, _, k4, _, _, _, _, _, k10, _⟩ := after_commit hs hF he
      exact ⟨w2.mount.id, k10.newMdir, by rw [← hF.opens.path]; exact k10.link⟩
    · obtain ⟨_, v', kt, _, ls', _, w2, _, _, _, _, _, _, _, _, _, _, _, b12⟩ := after_checkout hs hF he
      exact ⟨w2.mount.id, b12.newMdir, by rw [← hF.opens.path]; exact b12.link⟩
  have hr := C110_reachable hd d1.user
  have hno := no_mount_no_ws hr hout hl hi
  have key := fun α (k : OpenWs → M α) x he => no_mount_refused (f := f) (d' := d2) hr hout hl hi (k := k) (x := x) he
  exact ⟨hno, fun ci x he => key _ _ x he, fun c x he => key _ _ x he, fun es x he => key _ _ x he⟩

end
end Verif
