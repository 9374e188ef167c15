import Verif.Props.Between
import Verif.Props.Initial
import Verif.Props.Tidy
/-!
# What an `init` or `clone` that is cut short leaves at its path (C86)
-/
set_option autoImplicit false
namespace Verif
open M TS Json

section
variable {E : Env} {f : Faults}

/-- `path` leads to the workspace `w1`, or will as soon as the missing link to the mount is put there. The mount is new and shows `p` below the new working layer `u'`. -/
def Complete (E : Env) (d d' : Disk) (cwd path : Str) (w1 : OpenWs) (u' p : UID) : Prop :=
  (Gets E d' cwd path w1 ∨ d'.user (Path.abs cwd path) = .none ∧ Gets E (d'.setUser (Path.abs cwd path) (.link (E.mountPath w1.mount.id.base32))) cwd path w1) ∧
  w1.ws.HeadAt w1.tree u' p ∧ d.mdir w1.mount.id.base32 = none ∧
  ∃ ls, w1.tree.abs.Path p ls ∧ d'.mnt w1.mount.id.base32 = some ⟨u', ls⟩ ∧ d'.lists w1 = files (ls.map d'.content)

/-! ## Proof -/

/-- Everything but perhaps the link is there. -/
theorem complete_of {d d' : Disk} {cwd path dir : Str} {p : UID} {w' : OpenWs} {u' : UID} {b : Str} {mt : Mnt} (hr : Reach w'.tree) (hh : w'.ws.HeadAt w'.tree u' p)
    (hd : w'.spaceDir = dir) (hd' : dir = w'.spaceID.base32) (hS : w'.tree.abs.Shallow) (h2 : SavesAs E.sh w'.tree b)
    (h3 : d'.space dir = some (some b)) (h4 : d.mdir w'.mount.id.base32 = none) (h6 : d'.info w'.mount.id.base32 = some (marshalInfo E.sh (infoOf w' u')))
    (h7 : d'.mnt w'.mount.id.base32 = some mt) (h8 : d'.user (Path.abs cwd path) = .none ∨ d'.user (Path.abs cwd path) = .link (E.mountPath w'.mount.id.base32))
    (h9 : mt.upper = u') (h11 : w'.tree.abs.Path u' (u' :: mt.lowers)) (h12 : ∃ c, Blank c ∧ d'.layer u' = some (some c)) :
    ∃ w1, Complete E d d' cwd path w1 u' p ∧ w1.ws.id = w'.ws.id ∧ w1.spaceID = w'.spaceID ∧ w1.spaceDir = dir ∧ w1.ws.branch = sanitize w'.ws.branch ∧
      ComesBack w'.tree.abs w1.tree.abs := by
  obtain ⟨s', k1, k2, k3⟩ := (load_saved hr h2).1 hS
  obtain ⟨r, r1, r2⟩ := head_back k2 k3 hh.2
  have hpath : w'.tree.abs.Path p mt.lowers := by
    obtain ⟨_, n, hn, hp⟩ := hh
    obtain ⟨ls, hls⟩ := rooted_has_path hr ((reach_rooted hr).parent _ _ _ hn hp)
    obtain rfl : mt.lowers = ls := (List.cons.inj (Ws.path_unique h11 (.step hn hp hls))).2
    exact hls
  let w1 : OpenWs := ⟨s', w'.spaceID, dir, ⟨w'.mount.id, w'.mount.id.base32, none⟩, ⟨w'.ws.id, Path.abs cwd path, r, sanitize w'.ws.branch⟩⟩
  have hgets : ∀ d2 : Disk, d2.space = d'.space → d2.info = d'.info → d2.user (Path.abs cwd path) = .link (E.mountPath w'.mount.id.base32) → Gets E d2 cwd path w1 :=
    fun d2 a1 a2 a3 => gets_of_files (u := u') (i := infoOf w' u') (b := b) ⟨_, a3, leads_mountPath _ _ _⟩ rfl ⟨by rw [a2]; exact h6, rfl, rfl, rfl, rfl, rfl⟩ rfl hd'
      (by rw [a1]; exact h3) k1 r1
  refine ⟨w1, ⟨?_, ⟨r1, r2⟩, h4, mt.lowers, path_back k3 hpath, ?_, ?_⟩, rfl, rfl, rfl, rfl, k3⟩
  · rcases h8 with h8 | h8
    · exact Or.inr ⟨h8, hgets _ rfl rfl (upd_self _ _ _)⟩
    · exact Or.inl (hgets _ rfl rfl h8)
  · show d'.mnt w'.mount.id.base32 = _
    rw [h7, ← h9]
  · obtain ⟨c, c1, c2⟩ := h12
    rw [lists_mounted (w := w1) h7, h9, List.map_cons, show d'.content u' = c by simp [Disk.content, c2], files_blank c1]

theorem history_back {a a' : ATree} {wid root u : UID} {branch : Str} (h : NewHistory a wid root u branch) (hc : ComesBack a a') : NewHistory a' wid root u (sanitize branch) := by
  have hs : sanitize (wid.base32 ++ lit "/" ++ branch) = wid.base32 ++ lit "/" ++ sanitize branch := by
    refine sanitize_append_ascii (fun b hb => ?_) branch
    rcases List.mem_append.1 hb with hb | hb
    · exact base32_ascii _ b hb
    · exact (show ∀ b ∈ lit "/", b < (0x80 : UInt8) by decide) b hb
  have e := comesBack_oneBranch hc h.branches (fun t v ht => by rw [((h.tags t v).1 ht).1]; exact valid_ascii (by decide)) fun x n hx => by
    rcases (h.only x).1 ⟨n, hx⟩ with rfl | rfl
    · rw [h.first] at hx; cases hx; exact ⟨rfl, rfl⟩
    · rw [h.work] at hx; cases hx; exact ⟨rfl, rfl⟩
  rw [e]
  refine ⟨h.start, h.ne, h.first, h.work, h.only, h.tags, fun b v => ?_⟩
  show upd (fun _ => none) _ _ b = some v ↔ _
  rw [hs, upd]
  split
  · rename_i hb; simp only [Option.some.injEq, hb, true_and]; exact eq_comm
  · rename_i hb; exact ⟨nofun, fun e => absurd e.1 hb⟩

/-- **C86.** An `init` is killed at any moment or ends with an error after any call has failed. Then no other path has changed, and its path is as it was, or a
workspace with a new empty history is there and mounted; at most the link to it is missing, where there was something before. No layer that existed has changed. -/
theorem C86_init {d d' : Disk} {cwd path branch : Str} (hout : E.Outside (Path.abs cwd path)) (h : Stops E f (initCmd E (Path.abs cwd path) branch) d d') :
    (∀ q, q ≠ Path.abs cwd path → d'.user q = d.user q) ∧ (∀ v, d.layer v ≠ none → d'.layer v = d.layer v) ∧
    (d'.user (Path.abs cwd path) = d.user (Path.abs cwd path) ∨ ∃ w1 u' root, Complete E d d' cwd path w1 u' root ∧ d.space w1.spaceDir = none ∧ d.layer root = none ∧
      w1.ws.branch = sanitize branch ∧ NewHistory w1.tree.abs w1.ws.id root u' (sanitize branch)) := by
  have hM := wp_stops (initCmd_wp (f := f) (branch := branch) (off_of_outside hout)) (Or.inl (litter_refl d)) h
  rcases hM with hL | ⟨dir, hdir, hM⟩
  · exact ⟨fun q _ => congrFun hL.user q, fun v hv => litter_layer_eq hL hv, Or.inl (congrFun hL.user _)⟩
  refine ⟨hM.user, fun v hv => hM.layer v hv (fun x => x), hM.entry.imp_right ?_⟩
  rintro ⟨_, w', u', b, mt, ⟨root, hroot, hC, hsd⟩, h2, h3, h4, h5, h6, h7, h8, h9, h10, h11, h12⟩
  obtain ⟨w1, hS, e1, e2, e3, e4, e5⟩ := complete_of hC.reach hC.head hsd (hsd ▸ hC.spaceDir) (shallow_congr (by rw [hC.tree]; rfl) (shallow_init hC.newNode)) h2 h3 h4 h6 h7 h8 h9 h11
    (h12.resolve_left fun x => x)
  refine ⟨w1, u', root, hS, by rw [e3]; exact hdir, hroot, by rw [e4, hC.branch], ?_⟩
  rw [e1]
  exact history_back (by rw [hC.tree]; exact newHistory hC.newNode) e5

/-- **C86.** The same for a `clone`: the workspace that is there is on the commit that the source is on, and its history is that of the source with the new layer. -/
theorem C86_clone {d d' : Disk} (hd : Reachable E d) {cwd source cwd2 path2 : Str} (hout : E.Outside (Path.abs cwd source)) {w : OpenWs}
    (hg : Gets E d cwd source w) {u p : UID} (hh : w.ws.HeadAt w.tree u p) (hout2 : E.Outside (Path.abs cwd2 path2))
    (h : Stops E f (cloneCmd E cwd source (Path.abs cwd2 path2)) d d') :
    (∀ q, q ≠ Path.abs cwd2 path2 → d'.user q = d.user q) ∧ (∀ v, d.layer v ≠ none → d'.layer v = d.layer v) ∧
    (d'.user (Path.abs cwd2 path2) = d.user (Path.abs cwd2 path2) ∨ ∃ w1 u', ¬ w.tree.abs.Has u' ∧ Complete E d d' cwd2 path2 w1 u' p ∧ w1.spaceID = w.spaceID ∧
      w1.ws.branch = w.ws.branch ∧ ComesBack (w.tree.abs.add (some p) u' (fun _ => none) (fun _ => none)) w1.tree.abs) := by
  obtain ⟨g, hs⟩ := steady_reachable hd
  obtain ⟨T, hF⟩ := gets_found hs hout hg hh
  have hM := wp_stops (cloneCmd_wp (f := f) hF.opens (off_of_outside hout2)) (mid_litter (litter_refl d)) h
  refine ⟨hM.user, fun v hv => hM.layer v hv (fun x => x), hM.entry.imp_right ?_⟩
  rintro ⟨_, w', u', b, mt, hC, h2, h3, h4, h5, h6, h7, h8, h9, h10, h11, h12⟩
  have hr := opens_reach hF.opens
  have hS : w'.tree.abs.Shallow := by
    have hp : w.tree.abs.Has p := by
      obtain ⟨_, n, hn, hp⟩ := hh
      exact (reach_rooted hr).parent _ _ _ hn hp
    obtain ⟨ls, hls⟩ := rooted_has_path hr hp
    have : mt.lowers = ls := by
      have := path_add hC.newNode hls (fun _ => none) (fun _ => none)
      rw [← hC.tree] at this
      exact (List.cons.inj (Ws.path_unique h11 this)).2
    rw [hC.tree]
    exact shallow_add (reach_rooted hr) (comesBack_shallow hF.back hF.shallow) hC.newNode hls (by rw [← this]; exact fits_small h10)
  obtain ⟨w1, hX, e1, e2, e3, e4, e5⟩ := complete_of hC.reach hC.head hC.spaceDir (by rw [hC.spaceID]; exact hF.opens.dir) hS h2 h3 h4 h6 h7 h8 h9 h11 (h12.resolve_left fun x => x)
  refine ⟨w1, u', hC.newNode, hX, by rw [e2, hC.spaceID], ?_, by rw [← hC.tree]; exact e5⟩
  obtain ⟨i, _, _, _, _, _, i6⟩ := hF.opens.info
  rw [e4, hC.branch, ← i6, sanitize_idem]

end
end Verif
