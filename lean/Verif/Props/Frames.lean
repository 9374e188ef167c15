import Verif.Props.Edits
import Verif.World.Total
/-!
# What commands leave alone (C31, C42, C43, C56, C57)
-/
set_option autoImplicit false
namespace Verif
open M TS Json

section
variable {E : Env} {f : Faults}

theorem exec_stops {α : Type} {p : Prog α} {d d' : Disk} {a : α} (h : Exec E f p d a d') : Stops E f p d d' := by
  induction h with
  | ret a d => exact .here _ _
  | op hs _ ih => exact .op hs ih

theorem wpm_end {α : Type} {I : Disk → Prop} {x : M α} {R : α → Disk → Prop} {F : CErr → Disk → Prop} {d d' : Disk} {r : Res CErr α}
    (h : wpm E f I x R F d) (hd : I d) (he : Exec E f x d r d') : I d' := wp_stops h hd (exec_stops he)

/-! ## C31 -/

/-- **C31.** Whatever happens between two moments, every commit that a workspace of a space had at the first is in every
workspace of that space at the second, below the same parent, and unless it was the working layer of some workspace, it
carries the same texts. -/
theorem C31_append_only {d d' : Disk} (hd : Reachable E d) (hio : f.io = false) (hp : Past E f d d') {cwd path cwd' path' : Str}
    (hout : E.Outside (Path.abs cwd path)) (hout' : E.Outside (Path.abs cwd' path')) {w w' : OpenWs} (hg : Gets E d cwd path w)
    (hg' : Gets E d' cwd' path' w') (hsp : w'.spaceID = w.spaceID) {v : UID} {n : ANode} (hv : w.tree.abs.node v = some n) :
    ∃ n', w'.tree.abs.node v = some n' ∧ n'.parent = n.parent ∧ (¬ Head E d v → n' = n ∧ ¬ Head E d' v) := by
  obtain ⟨g, hs⟩ := steady_reachable hd
  obtain ⟨u, p, T, hF⟩ := found_of_gets hs hout hg
  obtain ⟨g', hs', hG⟩ := steady_past hio hs hp
  obtain ⟨u', p', T', hF'⟩ := found_of_gets hs' hout' hg'
  obtain ⟨T2, t1, t2⟩ := hG.trees _ T hF.tree
  have hdir : w'.spaceDir = w.spaceDir := by rw [hF'.opens.dir, hF.opens.dir, hsp]
  have := hF'.tree
  rw [hdir, t1] at this; cases this
  obtain ⟨n', e1, e2, e3⟩ := extends_views hF.back hF'.back (hs.keys _ _ hF.tree) (hs'.keys _ _ t1) t2 v n hv
  refine ⟨n', e1, e2, fun hn => ⟨sameNode_utf8 (found_utf8 hF) (found_utf8 hF') hv e1 (e3 hn), fun hh => hn (hG.heads v hh (hF.opens.stored v ⟨n, hv⟩))⟩⟩

/-! ## C56 -/

/-- No node of the tree is deeper than any mount can be. -/
def ATree.Low (a : ATree) : Prop := ∀ v ls, a.Path v ls → ls.length ≤ 97

theorem rooted_has_path {s : TS} (h : Reach s) {v : UID} (hv : s.abs.Has v) : ∃ ls, s.abs.Path v ls := (reach_rooted h).path v hv

theorem turn_shallow {U : UID → Prop} {act : Act} {s T : TS} (h : Reach s) (hS : s.abs.Shallow) (hl : s.abs.Low) (ht : Turns U act s.abs T.abs) : T.abs.Shallow := by
  generalize T.abs = b at *
  cases ht with
  | clone _ hp hn =>
    obtain ⟨ls, hls⟩ := rooted_has_path h hp
    exact shallow_add (reach_rooted h) hS hn hls (hl _ _ hls)
  | checkout _ _ hp hn =>
    obtain ⟨ls, hls⟩ := rooted_has_path h hp
    exact shallow_add (reach_rooted h) hS hn hls (hl _ _ hls)
  | commit _ hp hn _ =>
    obtain ⟨ls, hls⟩ := rooted_has_path h hp
    exact shallow_commit h hS hn hls (hl _ _ hls)
  | edit _ _ _ he => exact shallow_congr (editsAll_node he).1 hS

theorem shallow_next {d d' : Disk} {g' : Str → Option TS} {act : Act} (hst : Stepped E act d d') {cwd path : Str} {w : OpenWs} {u p : UID}
    (ho : Opens E d cwd path w u p) (hS : w.tree.abs.Shallow) (hl : w.tree.abs.Low) (h' : Steady E d' g') {T' : TS} (hT : g' w.spaceDir = some T') : T'.abs.Shallow := by
  obtain ⟨_, b, _, _, b1, b2⟩ := ho.tree
  obtain ⟨b', hb'⟩ := h'.saved _ T' hT
  have e2 : Reads T' b' := by
    rcases h'.tree _ _ hb' with ⟨T2, e1, e2⟩ | ⟨e1, _⟩
    · rw [hT] at e1; cases e1; exact e2
    · rw [hT] at e1; cases e1
  have key : (∃ s, spaceLoad (.ok b') = .ok s) → T'.abs.Shallow := by
    rintro ⟨s, hs⟩
    apply Classical.byContradiction
    intro hn
    obtain ⟨e, he⟩ := e2.deep hn
    rw [he] at hs; cases hs
  rcases hst.space _ _ hb' with e | ⟨T2, t1, t2, ⟨_, _, _, _, _, _, e, _⟩ | ⟨b0, s, t3, t4, t5⟩⟩
  · rw [b1] at e; cases e
    exact key ⟨_, b2⟩
  · rw [b1] at e; cases e
  · rw [b1] at t3; cases t3
    rw [b2] at t4; cases t4
    obtain ⟨s', a1, _⟩ := (load_saved t1 t2).1 (turn_shallow (opens_reach ho) hS hl t5)
    exact key ⟨s', a1⟩

/-- The act is not one on the workspace at the path `P` with the mount `m`. -/
def Act.Spares (E : Env) (d : Disk) (P : Str) (m : UID) : Act → Prop
  | .init path _ => path ≠ P
  | .clone _ _ target => target ≠ P
  | .commit cwd _ => Path.abs cwd (lit ".") ≠ P ∧ ∀ w0, Gets E d cwd (lit ".") w0 → w0.mount.id ≠ m
  | .checkout cwd _ => Path.abs cwd (lit ".") ≠ P ∧ ∀ w0, Gets E d cwd (lit ".") w0 → w0.mount.id ≠ m
  | .edit _ _ => True
  | .write _ _ => True
  | .files us => us P = d.user P
  | .reboot => True

theorem frame_happens {d d' : Disk} {g : Str → Option TS} {act : Act} (h : Steady E d g) (hpl : act.Plain E) (hh : Happens E f act d d') {P : Str} {m : UID}
    (hm : d.mdir m.base32 ≠ none) (hsp : act.Spares E d P m) :
    d'.user P = d.user P ∧ d'.info m.base32 = d.info m.base32 ∧ (act ≠ .reboot → d'.mnt m.base32 = d.mnt m.base32) := by
  have same : d' = d → d'.user P = d.user P ∧ d'.info m.base32 = d.info m.base32 ∧ (act ≠ .reboot → d'.mnt m.base32 = d.mnt m.base32) := by
    rintro rfl; exact ⟨rfl, rfl, fun _ => rfl⟩
  have mid : ∀ {N : OpenWs → UID → Prop} {dir path : Str} {old : Str → Prop} {hurt : UID → Prop}, Mid E N dir path old hurt d d' → path ≠ P → ¬ old m.base32 →
      d'.user P = d.user P ∧ d'.info m.base32 = d.info m.base32 ∧ (act ≠ .reboot → d'.mnt m.base32 = d.mnt m.base32) := by
    intro N dir path old hurt hM h1 h2
    obtain ⟨_, e1, e2⟩ := hM.mounts _ hm h2
    exact ⟨hM.user P (Ne.symm h1), e1, fun _ => e2⟩
  cases hh with
  | init he =>
    rcases wpm_end (initCmd_wp hpl) (Or.inl (litter_refl d)) he with hL | ⟨dir, _, hM⟩
    · exact ⟨congrFun hL.user P, congrFun hL.info _, fun _ => congrFun hL.mnt _⟩
    · exact mid hM hsp fun x => x
  | clone he =>
    rcases run_opens h hpl.1 he with ⟨e, _⟩ | ⟨w, u, p, T, hF⟩
    · exact same e
    · exact mid (wpm_end (cloneCmd_wp hF.opens hpl.2) (mid_litter (litter_refl d)) he) hsp fun x => x
  | commit he =>
    rcases run_opens h hpl he with ⟨e, _⟩ | ⟨w, u, p, T, hF⟩
    · exact same e
    · exact mid (wpm_end (commitCmd_wp hF.opens hF.mdir) (mid_litter (litter_refl d)) he) (by rw [hF.opens.path]; exact hsp.1) fun e =>
        hsp.2 w (gets_of_opens hF.opens) (C03_base32_injective e).symm
  | @checkout _ key _ _ _ he =>
    rcases run_opens h hpl he with ⟨e, _⟩ | ⟨w, u, p, T, hF⟩
    · exact same e
    by_cases hk : PlainKey key
    rotate_left
    · exact same (checkout_odd hk he).1
    · exact mid (wpm_end (checkoutCmd_wp hF.opens hk hF.mdir) (mid_litter (litter_refl d)) he) (by rw [hF.opens.path]; exact hsp.1) fun e =>
        hsp.2 w (gets_of_opens hF.opens) (C03_base32_injective e).symm
  | edit he =>
    obtain ⟨es1, r1, _, hes, he⟩ := edit_prefix he
    rcases run_opens h hpl he with ⟨e, _⟩ | ⟨w, u, p, T, hF⟩
    · exact same e
    · rcases wpm_end (editCmd_wp hF.opens hes) (Or.inl rfl) he with e | ⟨_, _, _, _, _, _, _, _, _, _, rfl⟩
      · exact same e
      · exact ⟨rfl, rfl, fun _ => rfl⟩
  | @write _ mt c _ hmt =>
    exact ⟨by simp only [Disk.put]; split <;> rfl, by simp only [Disk.put]; split <;> rfl, fun _ => by simp only [Disk.put]; split <;> rfl⟩
  | stray => exact ⟨rfl, rfl, fun _ => rfl⟩
  | files => exact ⟨hsp, rfl, fun _ => rfl⟩
  | reboot => exact ⟨rfl, rfl, fun hne => absurd rfl hne⟩

theorem ids_reachable {d : Disk} (hd : Reachable E d) : ∀ n (r : WsRec), d.info n = some (r.bytes E) → r.ws ∈ d.used := by
  obtain ⟨f, d0, hio, h0, hp⟩ := hd
  obtain ⟨⟨g0, hg0⟩, hi, _⟩ := legacy_sound h0
  exact (allTrees_from (Q := fun _ _ => True) ⟨fun _ h => h, fun _ h => h, fun _ _ _ => trivial, fun _ _ _ => trivial⟩ hio hg0 hi (fun _ _ _ _ _ => trivial) (pastOf_of_past hp)).1

/-- **C56.** Whatever is done elsewhere, successfully or not, a workspace that opens still opens afterwards: it is the same
workspace with the same working layer on the same last commit and the same mount, and its history is still there. (The limit on
the depth of the space is far beyond what can be mounted, C39, so it is not reached by commands that succeed.) -/
theorem C56_others {d d' : Disk} (hd : Reachable E d) (hio : f.io = false) {act : Act} (hpl : act.Plain E) (hh : Happens E f act d d') {cwd path : Str}
    (hout : E.Outside (Path.abs cwd path)) {w : OpenWs} (hg : Gets E d cwd path w) {u p : UID} (hu : w.ws.HeadAt w.tree u p) (hlow : w.tree.abs.Low)
    (hsp : act.Spares E d (Path.abs cwd path) w.mount.id) :
    ∃ w2, Gets E d' cwd path w2 ∧ SameWs w w2 ∧ w2.ws.HeadAt w2.tree u p ∧ w2.mount.id = w.mount.id ∧
      (act ≠ .reboot → d'.mnt w.mount.id.base32 = d.mnt w.mount.id.base32) ∧
      ∀ v n, w.tree.abs.node v = some n → ∃ n', w2.tree.abs.node v = some n' ∧ n'.parent = n.parent ∧ (¬ Head E d v → n' = n) := by
  obtain ⟨g, hs⟩ := steady_reachable hd
  obtain ⟨T, hF⟩ := gets_found hs hout hg hu
  obtain ⟨g', hs', hG⟩ := steady_happens hio hs hpl hh
  obtain ⟨e1, e2, e3⟩ := frame_happens hs hpl hh hF.mdir hsp
  obtain ⟨r, r1, r2, r3, r4, r5, r6⟩ := rec_of_opens hs hF.opens
  obtain ⟨T', t1, t2⟩ := hG.trees _ T hF.tree
  have hS := shallow_next (stepped_happens hio hs (ids_reachable hd) hpl hh) hF.opens (comesBack_shallow hF.back hF.shallow) hlow hs' t1
  obtain ⟨w2, q, o, a1, a2, a3, a4, a5, a6⟩ := reopen (r := r) hs' hout (by rw [e1, r4]; exact hF.opens.link) (by rw [r4, e2]; exact r1)
    (by rw [r3, ← hF.opens.dir]; exact t1) hS (by rw [r5]; exact extends_has t2 (by obtain ⟨n, hn, _⟩ := found_below hF; exact ⟨n, hn⟩))
  have hx := extends_views hF.back a5 (hs.keys _ _ hF.tree) (hs'.keys _ _ t1) t2
  have hq : p = q := by
    obtain ⟨n, b1, b2⟩ := extends_below hx hF.opens.head.2
    obtain ⟨n', c1, c2⟩ := o.head.2
    rw [r5, b1] at c1; cases c1
    rw [b2] at c2; simpa using c2
  subst hq
  rw [r5] at o
  obtain ⟨u2, p2, T2, hF2⟩ := found_of_gets hs' hout (gets_of_opens o)
  refine ⟨w2, gets_of_opens o, ⟨a1.trans r2, a4.trans r6, a2.trans r3⟩, o.head, a3.trans r4, e3, fun v n hv => ?_⟩
  obtain ⟨n', f1, f2, f3⟩ := hx v n hv
  exact ⟨n', f1, f2, fun hn => sameNode_utf8 (found_utf8 hF) (found_utf8 hF2) hv f1 (f3 hn)⟩

/-! ## C57 -/

theorem post_ends {α : Type} {R : α → Disk → Prop} {F : CErr → Disk → Prop} {r : Res CErr α} {d : Disk} (h : Post R F r d) : (∃ a, r = .ok a) ∨ ∃ e, r = .err e := by
  cases r with
  | ok a => exact Or.inl ⟨a, rfl⟩
  | err e => exact Or.inr ⟨e, rfl⟩
  | panic => exact h.elim
  | diverge => exact h.elim

/-- EndsWell with a result or an error, and not in a crash or a loop. -/
def EndsWell {α : Type} (r : Res CErr α) : Prop := (∃ a, r = .ok a) ∨ ∃ e, r = .err e

/-- **C57.** In every history, every commit that is run ends, with a result or an error. -/
theorem C57_commit_partial {d d' : Disk} (hd : Reachable E d) {cwd : Str} (hout : E.Outside (Path.abs cwd (lit "."))) (hpk : PlainLink d cwd (lit ".")) {ci : CommitInfo}
    {r : Res CErr (OpenWs × OpenWs)} (he : Exec E f (commitCmd E cwd ci) d r d') : EndsWell r := by
  obtain ⟨g, hs⟩ := steady_reachable hd
  rcases run_cases hs hout hpk he with ⟨e, h, _⟩ | ⟨w, u, p, T, hF⟩
  · exact Or.inr ⟨e, h⟩
  · exact post_ends (wpm_exec (commitCmd_wp hF.opens hF.mdir) he)

/-- **C57.** The same for a checkout. -/
theorem C57_checkout_partial {d d' : Disk} (hd : Reachable E d) {cwd key : Str} (hout : E.Outside (Path.abs cwd (lit "."))) (hpk : PlainLink d cwd (lit "."))
    (hk : PlainKey key) {r : Res CErr (OpenWs × OpenWs)} (he : Exec E f (checkoutCmd E cwd key) d r d') : EndsWell r := by
  obtain ⟨g, hs⟩ := steady_reachable hd
  rcases run_cases hs hout hpk he with ⟨e, h, _⟩ | ⟨w, u, p, T, hF⟩
  · exact Or.inr ⟨e, h⟩
  · exact post_ends (wpm_exec (checkoutCmd_wp hF.opens hk hF.mdir) he)

/-- **C57.** The same for a clone. -/
theorem C57_clone_partial {d d' : Disk} (hd : Reachable E d) {cwd source target : Str} (hout : E.Outside (Path.abs cwd source)) (hpk : PlainLink d cwd source)
    (hoff : E.Off target) {r : Res CErr OpenWs} (he : Exec E f (cloneCmd E cwd source target) d r d') : EndsWell r := by
  obtain ⟨g, hs⟩ := steady_reachable hd
  rcases run_cases hs hout hpk he with ⟨e, h, _⟩ | ⟨w, u, p, T, hF⟩
  · exact Or.inr ⟨e, h⟩
  · exact post_ends (wpm_exec (cloneCmd_wp hF.opens hoff) he)

/-- **C57.** The same for changes to branches and tags. -/
theorem C57_edit_partial {d d' : Disk} (hd : Reachable E d) {cwd : Str} {es : List Edit} (hout : E.Outside (Path.abs cwd (lit "."))) (hpk : PlainLink d cwd (lit "."))
    (hes : ∀ e ∈ es, e.Plain) {r : Res CErr TS} (he : Exec E f (editCmd E cwd es) d r d') : EndsWell r := by
  obtain ⟨g, hs⟩ := steady_reachable hd
  rcases run_cases hs hout hpk he with ⟨e, h, _⟩ | ⟨w, u, p, T, hF⟩
  · exact Or.inr ⟨e, h⟩
  · exact post_ends (wpm_exec (editCmd_wp hF.opens hes) he)

/-- **C57.** The same for `init`, on any disk. -/
theorem C57_init {d d' : Disk} {path branch : Str} (hoff : E.Off path) {r : Res CErr OpenWs} (he : Exec E f (initCmd E path branch) d r d') : EndsWell r :=
  post_ends (wpm_exec (initCmd_wp hoff) he)

/-- **C57.** No command ever waits for something that does not come: as long as random IDs are left, every command has a run to
its end from every disk, whatever calls fail on the way. -/
theorem C57_progress (d : Disk) (hu : d.used.length + 5 < 2 ^ 128) :
    (∀ path branch, ∃ r d', Exec E f (initCmd E path branch) d r d') ∧
    (∀ cwd source target, ∃ r d', Exec E f (cloneCmd E cwd source target) d r d') ∧
    (∀ cwd ci, ∃ r d', Exec E f (commitCmd E cwd ci) d r d') ∧
    (∀ cwd key, ∃ r d', Exec E f (checkoutCmd E cwd key) d r d') ∧
    (∀ cwd es, ∃ r d', Exec E f (editCmd E cwd es) d r d') :=
  ⟨fun path branch => exec_total (initCmd_draws E path branch) d hu,
   fun cwd source target => exec_total (cloneCmd_draws E cwd source target) d (by omega),
   fun cwd ci => exec_total (commitCmd_draws E cwd ci) d (by omega),
   fun cwd key => exec_total (checkoutCmd_draws E cwd key) d (by omega),
   fun cwd es => exec_total (editCmd_draws E cwd es) d (by omega)⟩

end
end Verif
