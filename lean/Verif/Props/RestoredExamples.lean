import Verif.Props.Restored
import Verif.Props.LaterExamples
/-!
# Examples for C110
-/
set_option autoImplicit false
namespace Verif
open M TS Json Story
namespace Story

/-- `C110_restored`, `C110_commits`, `C110_violated_lost`: a backup is made of a workspace `/w` that shows `f`. Then `f` is committed. With the backup in its place `/w` is no workspace; with the old link
made again it is the same workspace as at the time of the backup, and a checkout of its working layer shows `f`. -/
example : ∃ (d d1 d3 : Disk) (w w3 : OpenWs) (u : UID), Reachable E0 d ∧ Gets E0 d cw (lit ".") w ∧ d.lists w [lit "f"] = some (.file (lit "x")) ∧
    (∃ ci x, Exec E0 Faults.none (commitCmd E0 cw ci) d (.ok x) d1) ∧ (∀ w', ¬ Gets E0 (d.moved d1.user) cw (lit ".") w') ∧
    Gets E0 (d.moved d.user) cw (lit ".") w ∧ (∃ x, Exec E0 Faults.none (checkoutCmd E0 cw u.hex) (d.moved d.user) (.ok x) d3) ∧
    Gets E0 d3 cw (lit ".") w3 ∧ d3.lists w3 [lit "f"] = some (.file (lit "x")) := by
  obtain ⟨d, w, u, root, d1, w1, u1, hB, hS⟩ := second
  have hu := hB.used
  have hr := hB.live.past.reachable
  obtain ⟨r, he⟩ := hS.run
  have hg := C110_restored (us := d.user) hr outw hB.live.gets (Or.inl rfl)
  have hlink : ∃ n m c, (d.moved d.user).user w.ws.path = .link (E0.mountPath n) ∧ (d.moved d.user).mdir n = some m ∧ m.merged = some c :=
    ⟨_, _, _, by rw [hB.live.opens.path]; exact hB.live.link, hB.live.mdir, rfl⟩
  obtain ⟨r3, d3, he3⟩ := exec_total (E := E0) (f := Faults.none) (checkoutCmd_draws E0 cw u.hex) (d.moved d.user) (by simp only; omega)
  obtain ⟨⟨x, rfl⟩, w3, u3, h1, _, _, h4⟩ := C110_commits hr outw hB.live.gets hB.live.full (us := d.user) (f2 := Faults.none) rfl .refl outw hg rfl
    (fun ls hls => by rw [Ws.path_unique hls hB.live.full]; exact fits (by simp)) hlink he3
  refine ⟨d, d1, d3, w, w3, u, hr, hB.live.gets, hB.shows, ⟨_, _, he⟩, ?_, hg, ⟨x, he3⟩, h1, ?_⟩
  · exact (C110_violated_lost (f := Faults.none) (d2 := d) hr outw hB.live.gets (Or.inl ⟨_, _, he⟩)).1
  · rw [h4, ← hB.shows, lists_mounted hB.live.mnt]

/-- `C110_snapshot`, `C110_snapshot_one`: the copy is made in the middle of the first commit, when the tree is saved and the record is not. When it is restored, the workspace opens, and a commit that is made there is in the history. -/
example : ∃ (d d1 : Disk) (w w1 : OpenWs) (u u1 : UID), Gets E0 d cw (lit ".") w ∧ Stops E0 Faults.none (commitCmd E0 cw ci) d d1 ∧ Reachable E0 (d1.moved d1.user) ∧
    Gets E0 (d1.moved d1.user) cw (lit ".") w1 ∧ CommitEffect w.tree.abs w.ws u u1 ci w1.tree.abs := by
  obtain ⟨d, w, u, root, hB⟩ := begun
  have hu := hB.used
  obtain ⟨d1, w1, u1, h1, h2, h3, h4, h5, h6, ⟨m, hm, hmu⟩, h8, h8', h9⟩ := C32_violated_killed hB.live.past.reachable outw hB.live.gets hB.live.mounted hB.live.opens.head hB.may
    hB.live.full (fits (by simp)) hB.live.clearable (by omega) ci
  have hst : Stops E0 Faults.none ((Command.commit cw ci).prog E0) d d1 := stops_bind h1
  obtain ⟨⟨g, hg⟩, _⟩ := legacy_sound hB.live.past.legacy
  have hrec : ∀ n b i, d1.info n = some b → unmarshalInfo b = some i → d1.mdir n ≠ none := by
    intro n b i hb hi
    rw [(h8 n).1] at hb
    rcases hg.info n b hb with e | ⟨r, _, hr⟩
    · rw [hi] at e; cases e
    · rw [(h8 n).2 hr.mdir]; exact hr.mdir
  obtain ⟨r1, r2⟩ := C110_snapshot_one hB.live.past.legacy rfl hst hrec d1.user
  obtain ⟨p', h'⟩ := apart_stops (i := 0) hst (p := ⟨d, [], (Command.commit cw ci).prog E0⟩) rfl
  have h0 : World.Apart (⟨d, upd (fun _ => none) 0 (some ⟨d, [], (Command.commit cw ci).prog E0⟩)⟩ : World) := C77_killed.apart_start h'
  exact ⟨d, d1, w, w1, u, u1, hB.live.gets, h1, (C110_snapshot hB.live.past.legacy rfl (Sys.Apart.trans (.step (.refl _ (single_apart (single_none _))) (.start 0 (.commit cw ci) rfl) h0) h') hrec d1.user).2,
    C110_restored r1 outw h2 (Or.inl rfl), h4⟩

end Story
end Verif
