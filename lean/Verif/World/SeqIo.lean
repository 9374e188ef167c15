import Verif.World.Seq
import Verif.Props.Path
/-!
# Saving, expanding, removing and opening, run alone
-/
set_option autoImplicit false
namespace Verif
open M TS Json

section
variable {E : Env} {f : Faults}

/-- The path is not inside a mount. -/
def Env.Off (E : Env) (p : Str) : Prop := ∀ n, ¬ E.Inside p n

/-- The path is not below the directory of the mounts. -/
def Env.Outside (E : Env) (p : Str) : Prop := ∀ rest, Path.comps p ≠ Path.comps E.root ++ lit "mounts" :: rest

theorem off_of_outside {p : Str} (h : E.Outside p) : E.Off p := by
  rintro n ⟨rest, hr⟩
  refine h (n :: lit "merged" :: rest) ?_
  rw [hr]; simp

theorem off_not {p : Str} (h : E.Off p) : ¬ ∃ n, E.Inside p n := fun ⟨n, hn⟩ => h n hn

/-! ## Saving -/

/-- What saving the tree `s` in the space `dir` can leave half way. -/
def SavingTree (E : Env) (dir : Str) (s : TS) (d d' : Disk) : Prop :=
  d' = d ∨ ∃ b p, SavesAs E.sh s b ∧ p <+: b ∧ d' = d.setSpace dir (some (some p))

theorem setSpace_setSpace (d : Disk) (n : Str) (x y : Option (Option Str)) : (d.setSpace n x).setSpace n y = d.setSpace n y := by
  simp only [Disk.setSpace, upd_upd]

theorem setInfo_setInfo (d : Disk) (n : Str) (x y : Option Str) : (d.setInfo n x).setInfo n y = d.setInfo n y := by
  simp only [Disk.setInfo, upd_upd]

theorem overwrite_nil (b : Str) : overwrite b [] = b := by simp [overwrite]

theorem dump_saves {s : TS} (hr : Reach s) {d d' : Disk} {b : Str} (h : Step E f (.dump s) d b d') : SavesAs E.sh s b ∧ d' = d := by
  obtain ⟨rfl, h | ⟨_, h⟩⟩ := h
  · exact ⟨h, rfl⟩
  · obtain ⟨b', hb⟩ := C17_saves hr E.sh
    exact absurd hb (h b')

theorem spaceSave_wp {d : Disk} {s : TS} {dir : Str} (hr : Reach s) (hd : d.space dir ≠ none) :
    wpm E f (SavingTree E dir s d) (spaceSave dir s)
      (fun _ d' => ∃ b, SavesAs E.sh s b ∧ d' = d.setSpace dir (some (some b)))
      (fun e d' => SavingTree E dir s d d' ∧ e.early = false ∧ f.io = true) d := by
  unfold spaceSave
  refine wpm_call fun b d1 h1 => ?_
  obtain ⟨hb, rfl⟩ := dump_saves hr h1
  refine ⟨Or.inl rfl, wpm_must fun a d2 h2 => ?_⟩
  rcases h2 with ⟨rfl, _, rfl⟩ | ⟨rfl, hx, rfl⟩
  · have h0 : SavingTree E dir s d1 (d1.setSpace dir (some (some []))) := Or.inr ⟨b, [], hb, List.nil_prefix, rfl⟩
    refine ⟨h0, fun _ => ?_, nofun⟩
    refine wpm_bind (wpm_ask fun a d3 h3 => ?_)
    have hs : (d1.setSpace dir (some (some []))).space dir = some (some []) := by simp [Disk.setSpace]
    simp only [Step, hs, overwrite_nil] at h3
    rcases h3 with ⟨rfl, rfl⟩ | ⟨rfl, hio, p, hp, rfl⟩
    · rw [setSpace_setSpace]
      exact ⟨Or.inr ⟨b, b, hb, List.prefix_refl b, rfl⟩, wpm_need (fun _ => ⟨b, hb, rfl⟩) nofun⟩
    · rw [setSpace_setSpace]
      have h4 : SavingTree E dir s d1 (d1.setSpace dir (some (some p))) := Or.inr ⟨b, p, hb, hp, rfl⟩
      exact ⟨h4, wpm_need nofun fun _ => ⟨h4, rfl, hio⟩⟩
  · refine ⟨Or.inl rfl, nofun, fun _ => ⟨Or.inl rfl, rfl, ?_⟩⟩
    rcases hx with hx | hx
    · exact absurd hd hx
    · exact hx

/-- What writing a record can leave half way. -/
def SavingInfo (n r : Str) (d d' : Disk) : Prop := d' = d ∨ ∃ p, p <+: r ∧ d' = d.setInfo n (some p)

theorem head_obj {s : TS} (h : WF s) {u : UID} {r : Nat} (hg : s.get u = some r) : ∃ o, s.heap[r]? = some o ∧ o.id = u := by
  obtain ⟨o, ho, hk⟩ := h.idx _ _ hg
  exact ⟨o, ho, C03_hex_injective hk⟩

theorem saveInfo_wp {d : Disk} {w : OpenWs} {u : UID} (hr : Reach w.tree) (hu : w.tree.get u = some w.ws.head) :
    wpm E f (SavingInfo w.mount.id.base32 (marshalInfo E.sh (infoOf w u)) d) (saveInfo E w)
      (fun _ d' => d' = d.setInfo w.mount.id.base32 (some (marshalInfo E.sh (infoOf w u))))
      (fun e d' => SavingInfo w.mount.id.base32 (marshalInfo E.sh (infoOf w u)) d d' ∧ e.early = false ∧ f.io = true) d := by
  obtain ⟨o, ho, rfl⟩ := head_obj (wf_of_reach hr) hu
  unfold saveInfo
  simp only [ho]
  refine wpm_must fun a d2 h2 => ?_
  rcases h2 with ⟨rfl, _, rfl⟩ | ⟨rfl, hx, rfl⟩
  · refine ⟨Or.inr ⟨[], List.nil_prefix, rfl⟩, fun _ => ?_, nofun⟩
    refine wpm_bind (wpm_ask fun a d3 h3 => ?_)
    have hs : (d.setInfo w.mount.id.base32 (some [])).info w.mount.id.base32 = some [] := by simp [Disk.setInfo]
    simp only [Step, hs, overwrite_nil] at h3
    rcases h3 with ⟨rfl, rfl⟩ | ⟨rfl, hio, p, hp, rfl⟩
    · rw [setInfo_setInfo]
      exact ⟨Or.inr ⟨_, List.prefix_refl _, rfl⟩, wpm_need (fun _ => rfl) nofun⟩
    · rw [setInfo_setInfo]
      exact ⟨Or.inr ⟨_, hp, rfl⟩, wpm_need nofun fun _ => ⟨Or.inr ⟨_, hp, rfl⟩, rfl, hio⟩⟩
  · refine ⟨Or.inl rfl, nofun, fun _ => ⟨Or.inl rfl, rfl, ?_⟩⟩
    rcases hx with hx | hx
    · exact absurd trivial hx
    · exact hx

/-- What saving a tree and a record can leave half way: the record is written when the tree is complete. -/
def Saving (E : Env) (w : OpenWs) (u : UID) (d d' : Disk) : Prop :=
  SavingTree E w.spaceDir w.tree d d' ∨
  ∃ b p, SavesAs E.sh w.tree b ∧ p <+: marshalInfo E.sh (infoOf w u) ∧
    d' = (d.setSpace w.spaceDir (some (some b))).setInfo w.mount.id.base32 (some p)

theorem saveAll_wp {d : Disk} {w : OpenWs} {u : UID} (hr : Reach w.tree) (hu : w.tree.get u = some w.ws.head) (hd : d.space w.spaceDir ≠ none) :
    wpm E f (Saving E w u d) (saveAll E w)
      (fun w' d' => w' = w ∧ ∃ b, SavesAs E.sh w.tree b ∧
        d' = (d.setSpace w.spaceDir (some (some b))).setInfo w.mount.id.base32 (some (marshalInfo E.sh (infoOf w u))))
      (fun e d' => Saving E w u d d' ∧ e.early = false ∧ f.io = true) d := by
  unfold saveAll
  refine wpm_bind (wpm_weaken (spaceSave_wp hr hd) (fun _ h => Or.inl h) (fun _ d1 h1 => ?_) fun e d1 h1 => ⟨Or.inl h1.1, h1.2⟩)
  obtain ⟨b, hb, rfl⟩ := h1
  have hI : ∀ d', SavingInfo w.mount.id.base32 (marshalInfo E.sh (infoOf w u)) (d.setSpace w.spaceDir (some (some b))) d' → Saving E w u d d' := by
    rintro d' (rfl | ⟨p, hp, rfl⟩)
    · exact Or.inl (Or.inr ⟨b, b, hb, List.prefix_refl b, rfl⟩)
    · exact Or.inr ⟨b, p, hb, hp, rfl⟩
  refine wpm_bind (wpm_weaken (saveInfo_wp hr hu) hI (fun _ d1 h1 => ?_) fun e d1 h1 => ⟨hI _ h1.1, h1.2⟩)
  exact wpm_pure ⟨rfl, b, hb, h1⟩

/-! ## Expanding -/

/-- What expanding the mount `n` of `⟨u, ls⟩` at `path` can leave half way. -/
structure Expanding (E : Env) (n : Str) (mt : Mnt) (path : Str) (d d' : Disk) : Prop where
  layer : ∀ v, v ≠ mt.upper → d'.layer v = d.layer v
  upper : ∃ c, Blank c ∧ d'.layer mt.upper = some (some c)
  space : d'.space = d.space
  info : d'.info = d.info
  used : d'.used = d.used
  mdir : ∀ n', n' ≠ n → d'.mdir n' = d.mdir n'
  mdirNew : d'.mdir n ≠ none
  mnt : ∀ n', n' ≠ n → d'.mnt n' = d.mnt n'
  mntNew : d'.mnt n = d.mnt n ∨ d'.mnt n = some mt
  user : ∀ p, p ≠ path → d'.user p = d.user p
  entry : d'.user path = d.user path ∨
    (d'.user path = .none ∨ d'.user path = .link (E.mountPath n)) ∧ d.user path ≠ .dir ∧ d'.mnt n = some mt ∧ E.Fits mt.lowers.length

/-- The entry at the path can be replaced by a link. -/
def Clearable (E : Env) (d : Disk) (p : Str) : Prop :=
  d.user p = .none ∨ d.user p = .emptyDir ∨ d.user p = .file ∨
  ∃ n m c, d.user p = .link (E.mountPath n) ∧ d.mdir n = some m ∧ m.merged = some c

/-- If there is a link to a mount point other than `n` at the path, that mount point exists. -/
def Solid (E : Env) (d : Disk) (n p : Str) : Prop :=
  ∀ n', n' ≠ n → d.user p = .link (E.mountPath n') → ∃ m c, d.mdir n' = some m ∧ m.merged = some c

/-- The disk after a successful expansion. -/
def expanded (E : Env) (n : Str) (mt : Mnt) (path : Str) (d : Disk) : Disk :=
  (((d.setMdir n (some ⟨some .empty, true⟩)).setMnt n (some mt)).setLayer mt.upper (some (some (Content.empty.chown E.owner)))).setUser path
    (.link (E.mountPath n))

theorem blank_chown (o : Nat) : Blank (Content.empty.chown o) := fun x p => by simp [Content.chown, Content.empty]

theorem expand_wp {d : Disk} {w : OpenWs} {mid u : UID} {ls : List UID} (hm : w.mount = ⟨mid, mid.base32, some ⟨u, ls⟩⟩)
    (hmd : d.mdir mid.base32 = some ⟨none, false⟩) (hu : d.layer u = some (some .empty)) (hls : ∀ v ∈ ls, d.HasDiff v)
    (hoff : E.Off w.ws.path) :
    wpm E f (Expanding E mid.base32 ⟨u, ls⟩ w.ws.path d) (expand E w)
      (fun _ d' => d' = expanded E mid.base32 ⟨u, ls⟩ w.ws.path d ∧ E.Fits ls.length ∧ (d.user w.ws.path ≠ .dir ∧ d.user w.ws.path ≠ .noParent) ∧ Solid E d mid.base32 w.ws.path)
      (fun e d' => Expanding E mid.base32 ⟨u, ls⟩ w.ws.path d d' ∧ e.early = false ∧
        (f.io = true ∨ ¬ E.Fits ls.length ∨ ¬ Clearable E d w.ws.path)) d := by
  generalize hn : mid.base32 = n at *
  have hI : ∀ (d' : Disk) (md : MDir) (mt : Option Mnt) (c : Content) (ue : UEnt), Blank c → (mt = d.mnt n ∨ mt = some ⟨u, ls⟩) →
      (ue = d.user w.ws.path ∨ (ue = .none ∨ ue = .link (E.mountPath n)) ∧ d.user w.ws.path ≠ .dir ∧ mt = some ⟨u, ls⟩ ∧ E.Fits ls.length) →
      d' = { d with mdir := upd d.mdir n (some md), mnt := upd d.mnt n mt, layer := upd d.layer u (some (some c)), user := upd d.user w.ws.path ue } →
      Expanding E n ⟨u, ls⟩ w.ws.path d d' := by
    rintro d' md mt c ue hc hmt hue rfl
    exact ⟨fun v hv => upd_ne _ _ hv, ⟨c, hc, upd_self _ _ _⟩, rfl, rfl, rfl, fun n' h => upd_ne _ _ h, by simp, fun n' h => upd_ne _ _ h,
      by simpa using hmt, fun p h => upd_ne _ _ h, by simpa using hue⟩
  have eU : upd d.user w.ws.path (d.user w.ws.path) = d.user := upd_id rfl
  have eM : upd d.mnt n (d.mnt n) = d.mnt := upd_id rfl
  have eL : upd d.layer u (some (some .empty)) = d.layer := upd_id hu
  have eD : upd d.mdir n (some ⟨none, false⟩) = d.mdir := upd_id hmd
  unfold expand mountP
  rw [hm]
  simp only
  -- merged
  have I0 : Expanding E n ⟨u, ls⟩ w.ws.path d d := hI d ⟨none, false⟩ (d.mnt n) .empty (d.user w.ws.path) blank_empty (Or.inl rfl) (Or.inl rfl) (by rw [eU, eM, eL, eD])
  refine wpm_bind (wpm_call fun a d1 h1 => ?_)
  obtain ⟨rfl, ⟨rfl, m, c, h1, h1'⟩ | ⟨rfl, -⟩⟩ := h1
  · rw [hmd] at h1; cases h1; cases h1'
  refine ⟨I0, ?_⟩
  simp only [Bool.not_false, if_true]
  refine wpm_must fun a d2 h2 => ?_
  rcases h2 with ⟨rfl, m, h2, -, rfl⟩ | ⟨rfl, rfl, m, c, h2, h2'⟩ | ⟨rfl, rfl, h2⟩
  rotate_left
  · rw [hmd] at h2; cases h2; cases h2'
  · refine ⟨I0, nofun, fun _ => ⟨I0, rfl, Or.inl ?_⟩⟩
    rcases h2 with h2 | h2
    · rw [hmd] at h2; cases h2
    · exact h2
  rw [hmd] at h2; cases h2
  generalize hd2 : d1.setMdir n (some ⟨some .empty, false⟩) = d2
  have I2 : Expanding E n ⟨u, ls⟩ w.ws.path d1 d2 := hI d2 ⟨some .empty, false⟩ (d1.mnt n) .empty (d1.user w.ws.path) blank_empty (Or.inl rfl) (Or.inl rfl)
    (by rw [eU, eM, eL, ← hd2]; rfl)
  refine ⟨I2, fun _ => ?_, nofun⟩
  -- work
  have hmd2 : d2.mdir n = some ⟨some .empty, false⟩ := by rw [← hd2]; simp [Disk.setMdir]
  refine wpm_call fun a d3 h3 => ?_
  obtain ⟨rfl, ⟨rfl, m, h3, h3'⟩ | ⟨rfl, -⟩⟩ := h3
  · rw [hmd2] at h3; cases h3; cases h3'
  refine ⟨I2, ?_⟩
  simp only [Bool.not_false, if_true]
  refine wpm_must fun a d4 h4 => ?_
  rcases h4 with ⟨rfl, m, h4, -, rfl⟩ | ⟨rfl, rfl, m, h4, h4'⟩ | ⟨rfl, rfl, h4⟩
  rotate_left
  · rw [hmd2] at h4; cases h4; cases h4'
  · refine ⟨I2, nofun, fun _ => ⟨I2, rfl, Or.inl ?_⟩⟩
    rcases h4 with h4 | h4
    · rw [hmd2] at h4; cases h4
    · exact h4
  rw [hmd2] at h4; cases h4
  generalize hd4 : d3.setMdir n (some ⟨some .empty, true⟩) = d4
  have hd4' : d4 = d1.setMdir n (some ⟨some .empty, true⟩) := by rw [← hd4, ← hd2]; simp only [Disk.setMdir, upd_upd]
  have I4 : Expanding E n ⟨u, ls⟩ w.ws.path d1 d4 := hI d4 ⟨some .empty, true⟩ (d1.mnt n) .empty (d1.user w.ws.path) blank_empty (Or.inl rfl) (Or.inl rfl)
    (by rw [eU, eM, eL, hd4']; rfl)
  refine ⟨I4, fun _ => ?_, nofun⟩
  -- mount
  refine wpm_must fun a d5 h5 => ?_
  rcases h5 with ⟨rfl, ⟨-, -, hfit⟩, rfl⟩ | ⟨rfl, h5, rfl⟩
  rotate_left
  · refine ⟨I4, nofun, fun _ => ⟨I4, rfl, ?_⟩⟩
    rcases h5 with h5 | h5
    · right; left
      intro hfit
      refine h5 ⟨⟨⟨some .empty, true⟩, .empty, by rw [hd4']; simp only [Disk.setMdir, upd_self], rfl, rfl⟩, ?_, hfit⟩
      intro v hv
      rcases List.mem_cons.1 hv with rfl | hv
      · exact ⟨_, by rw [hd4']; exact hu⟩
      · obtain ⟨c, hc⟩ := hls v hv
        exact ⟨c, by rw [hd4']; exact hc⟩
    · exact Or.inl h5
  generalize hd5 : d4.setMnt n (some ⟨u, ls⟩) = d5
  have I5 : Expanding E n ⟨u, ls⟩ w.ws.path d1 d5 := hI d5 ⟨some .empty, true⟩ (some ⟨u, ls⟩) .empty (d1.user w.ws.path) blank_empty (Or.inr rfl) (Or.inl rfl)
    (by rw [eU, eL, ← hd5, hd4']; rfl)
  refine ⟨I5, fun _ => ?_, nofun⟩
  refine wpm_bind (wpm_ask fun a d6 h6 => ?_)
  have hmn5 : d5.mnt n = some ⟨u, ls⟩ := by rw [← hd5]; simp [Disk.setMnt]
  have hl5 : d5.layer u = some (some .empty) := by rw [← hd5, hd4']; exact hu
  simp only [Step, hmn5] at h6
  rcases h6 with ⟨rfl, -, rfl⟩ | ⟨rfl, h6, rfl⟩
  rotate_left
  · refine ⟨I5, wpm_need nofun fun _ => ⟨I5, rfl, ?_⟩⟩
    rcases h6 with h6 | h6
    · exact absurd trivial h6
    · exact Or.inl h6
  have hput : d5.put u ((d5.content u).chown E.owner) = d5.setLayer u (some (some (Content.empty.chown E.owner))) := by
    simp only [Disk.put, Disk.content, hl5, Option.bind_some, Option.getD_some]
  rw [hput]
  generalize hd6 : d5.setLayer u (some (some (Content.empty.chown E.owner))) = d6
  have hd6' : d6 = ((d1.setMdir n (some ⟨some .empty, true⟩)).setMnt n (some ⟨u, ls⟩)).setLayer u (some (some (Content.empty.chown E.owner))) := by
    rw [← hd6, ← hd5, hd4']
  have hIu : ∀ ue, (ue = d1.user w.ws.path ∨ (ue = .none ∨ ue = .link (E.mountPath n)) ∧ d1.user w.ws.path ≠ .dir) →
      Expanding E n ⟨u, ls⟩ w.ws.path d1 (d6.setUser w.ws.path ue) := fun ue hx =>
    hI _ ⟨some .empty, true⟩ (some ⟨u, ls⟩) (Content.empty.chown E.owner) ue (blank_chown _) (Or.inr rfl)
      (hx.imp_right fun h => ⟨h.1, h.2, rfl, hfit⟩) (by rw [hd6']; rfl)
  have hsame : d6.setUser w.ws.path (d1.user w.ws.path) = d6 := by
    have : d6.user = d1.user := by rw [hd6']; rfl
    simp only [Disk.setUser, this, eU]
    rw [← this]
  have I6 : Expanding E n ⟨u, ls⟩ w.ws.path d1 d6 := by
    have := hIu (d1.user w.ws.path) (Or.inl rfl)
    rwa [hsame] at this
  refine ⟨I6, wpm_need (fun _ => ?_) nofun⟩
  -- cwd
  refine wpm_must fun a d7 h7 => ?_
  rcases h7 with ⟨rfl, -, rfl⟩ | ⟨rfl, h7, rfl⟩
  rotate_left
  · refine ⟨I6, nofun, fun _ => ⟨I6, rfl, Or.inl ?_⟩⟩
    rcases h7 with h7 | h7
    · exact absurd trivial h7
    · exact h7
  refine ⟨I6, fun _ => ?_, nofun⟩
  refine wpm_must fun a d8 h8 => ?_
  rcases h8 with ⟨rfl, -, rfl⟩ | ⟨rfl, h8, rfl⟩
  rotate_left
  · refine ⟨I6, nofun, fun _ => ⟨I6, rfl, Or.inl ?_⟩⟩
    rcases h8 with h8 | h8
    · exact absurd trivial h8
    · exact h8
  refine ⟨I6, fun _ => ?_, nofun⟩
  have hus : d8.user = d1.user := by rw [hd6']; rfl
  have hno := off_not hoff
  -- the end, from a disk where the path has the entry `ue`
  have hend : ∀ ue, (ue = d1.user w.ws.path ∨ ue = .none ∧ d1.user w.ws.path ≠ .dir) → (ue = .none → (d1.user w.ws.path ≠ .dir ∧ d1.user w.ws.path ≠ .noParent) ∧ Solid E d1 n w.ws.path) →
      (ue ≠ .none → f.io = true ∨ ¬ Clearable E d1 w.ws.path) →
      wpm E f (Expanding E n ⟨u, ls⟩ w.ws.path d1)
        (do need (← ask (.symlink (E.mountPath n) w.ws.path)) .symlink
            need (← ask (.lchown w.ws.path)) .symlink
            need (← ask (.sys .chdirBack)) .cwd)
        (fun _ d' => d' = expanded E n ⟨u, ls⟩ w.ws.path d1 ∧ E.Fits ls.length ∧ (d1.user w.ws.path ≠ .dir ∧ d1.user w.ws.path ≠ .noParent) ∧ Solid E d1 n w.ws.path)
        (fun e d' => Expanding E n ⟨u, ls⟩ w.ws.path d1 d' ∧ e.early = false ∧ (f.io = true ∨ ¬ E.Fits ls.length ∨ ¬ Clearable E d1 w.ws.path))
        (d8.setUser w.ws.path ue) := by
    intro ue hcond hue hue'
    have hIue := hIu ue (hcond.imp_right fun h => ⟨Or.inl h.1, h.2⟩)
    refine wpm_must fun a d9 h9 => ?_
    rcases h9 with ⟨-, h9⟩ | ⟨h9, _⟩
    rotate_left
    · exact absurd h9 hno
    rcases h9 with ⟨rfl, h9, rfl⟩ | ⟨rfl, h9, rfl⟩
    rotate_left
    · refine ⟨hIue, nofun, fun _ => ⟨hIue, rfl, ?_⟩⟩
      by_cases hx : ue = .none
      · subst hx
        rcases h9 with h9 | h9
        · exact absurd (by simp [Disk.setUser]) h9
        · exact Or.inl h9
      · rcases hue' hx with h | h
        · exact Or.inl h
        · exact Or.inr (Or.inr h)
    have hue2 : ue = .none := by simpa [Disk.setUser] using h9
    have hne := hue hue2
    have hset : (d8.setUser w.ws.path ue).setUser w.ws.path (.link (E.mountPath n)) = expanded E n ⟨u, ls⟩ w.ws.path d1 := by
      rw [hd6']; simp only [Disk.setUser, upd_upd, expanded]
    have IE : Expanding E n ⟨u, ls⟩ w.ws.path d1 ((d8.setUser w.ws.path ue).setUser w.ws.path (.link (E.mountPath n))) := by
      have := hIu (.link (E.mountPath n)) (Or.inr ⟨Or.inr rfl, hne.1.1⟩)
      simpa only [Disk.setUser, upd_upd] using this
    refine ⟨IE, fun _ => ?_, nofun⟩
    refine wpm_must fun a d10 h10 => ?_
    rcases h10 with ⟨-, h10⟩ | ⟨h10, _⟩
    rotate_left
    · exact absurd h10 hno
    rcases h10 with ⟨rfl, -, rfl⟩ | ⟨rfl, h10, rfl⟩
    rotate_left
    · refine ⟨IE, nofun, fun _ => ⟨IE, rfl, Or.inl ?_⟩⟩
      rcases h10 with h10 | h10
      · exact absurd (by simp [Disk.setUser]) h10
      · exact h10
    refine ⟨IE, fun _ => ?_, nofun⟩
    refine wpm_bind (wpm_ask fun a d11 h11 => ?_)
    rcases h11 with ⟨rfl, -, rfl⟩ | ⟨rfl, h11, rfl⟩
    · exact ⟨IE, wpm_need (fun _ => ⟨hset, hfit, hne⟩) nofun⟩
    · refine ⟨IE, wpm_need nofun fun _ => ⟨IE, rfl, Or.inl ?_⟩⟩
      rcases h11 with h11 | h11
      · exact absurd trivial h11
      · exact h11
  refine wpm_call fun a d9 h9 => ?_
  obtain ⟨rfl, h9⟩ := h9
  refine ⟨I6, ?_⟩
  have hmerged : ∀ n' m c, d1.mdir n' = some m → m.merged = some c → ∃ m c, d9.mdir n' = some m ∧ m.merged = some c := by
    intro n' m c h1 h2
    by_cases hx : n' = n
    · exact ⟨⟨some .empty, true⟩, .empty, by rw [hd6', hx]; simp only [Disk.setMdir, Disk.setMnt, Disk.setLayer, upd_self], rfl⟩
    · exact ⟨m, c, by rw [hd6']; simp only [Disk.setMdir, Disk.setMnt, Disk.setLayer, upd_ne _ _ hx]; exact h1, h2⟩
  cases a with
  | true =>
    simp only [if_true]
    refine wpm_must fun a d10 h10 => ?_
    rcases h10 with ⟨-, h10⟩ | ⟨h10, _⟩
    rotate_left
    · exact absurd h10 hno
    rcases h10 with ⟨rfl, h10, rfl⟩ | ⟨rfl, h10, rfl⟩
    · rw [hus] at h10
      have hx : d1.user w.ws.path ≠ .dir ∧ d1.user w.ws.path ≠ .noParent := by
        rcases h10 with h10 | h10 | ⟨t, h10⟩ <;> rw [h10] <;> exact ⟨nofun, nofun⟩
      have hsol : Solid E d1 n w.ws.path := fun n' hn' hl => by
        rcases h9 with h9 | h9 | h9
        · simp only [Exists, hus, hl] at h9
          obtain ⟨m, c, h1, h2⟩ := (h9 n' rfl).1 trivial
          rw [hd6'] at h1
          simp only [Disk.setMdir, Disk.setMnt, Disk.setLayer, upd_ne _ _ hn'] at h1
          exact ⟨m, c, h1, h2⟩
        · exact absurd h9 hno
        · cases h9.1
      exact ⟨hIu .none (Or.inr ⟨Or.inl rfl, hx.1⟩), fun _ => hend .none (Or.inr ⟨rfl, hx.1⟩) (fun _ => ⟨hx, hsol⟩) (fun h => absurd rfl h), nofun⟩
    · refine ⟨I6, nofun, fun _ => ⟨I6, rfl, ?_⟩⟩
      rcases h10 with h10 | h10
      · right; right
        rw [hus] at h10
        rintro (hc | hc | hc | ⟨n', m, c, hc, _⟩)
        · rcases h9 with h9 | h9 | h9
          · simp only [Exists, hus, hc] at h9; cases h9
          · exact hno h9
          · cases h9.1
        · exact h10 (Or.inl hc)
        · exact h10 (Or.inr (Or.inl hc))
        · exact h10 (Or.inr (Or.inr ⟨_, hc⟩))
      · exact Or.inl h10
  | false =>
    simp only [Bool.false_eq_true, if_false]
    have := hend (d1.user w.ws.path) (Or.inl rfl) (fun h => by refine ⟨by rw [h]; exact ⟨nofun, nofun⟩, fun n' _ hl => ?_⟩; rw [h] at hl; cases hl) (fun hx => ?_)
    · rwa [hsame] at this
    · rcases h9 with h9 | h9 | h9
      · right
        rintro (hc | hc | hc | ⟨n', m, c, hc, hc1, hc2⟩)
        · exact hx hc
        · simp only [Exists, hus, hc] at h9; cases h9
        · simp only [Exists, hus, hc] at h9; cases h9
        · simp only [Exists, hus, hc] at h9
          have := (h9 n' rfl).2 (hmerged n' m c hc1 hc2)
          cases this
      · exact absurd h9 hno
      · exact Or.inl h9.2

/-! ## Removing -/

/-- What removing the mount `n` can leave half way. -/
structure Removing (f : Faults) (n : Str) (d d' : Disk) : Prop where
  layer : d'.layer = d.layer ∨ ((f.busy = true ∨ f.io = true) ∧ ∃ m c, d.mnt n = some m ∧ d'.layer = (d.put m.upper c).layer)
  space : d'.space = d.space
  info : ∀ n', n' ≠ n → d'.info n' = d.info n'
  infoOld : d'.info n = d.info n ∨ d'.info n = none
  used : d'.used = d.used
  mdir : ∀ n', n' ≠ n → d'.mdir n' = d.mdir n'
  mdirOld : d.mdir n = none → d'.mdir n = none
  mnt : ∀ n', n' ≠ n → d'.mnt n' = d.mnt n'
  mntOld : d'.mnt n = d.mnt n ∨ d'.mnt n = none
  user : d'.user = d.user

/-- The disk after the mount has been removed. -/
def removed (n : Str) (d : Disk) : Disk := ((d.setMnt n none).setMdir n none).setInfo n none

/-- The mount `n` stays because it is busy, and what it shows has been deleted through it. -/
def Wiped (f : Faults) (n : Str) (d d' : Disk) : Prop :=
  f.busy = true ∧ ∃ mt c wk, d.mnt n = some mt ∧ (f.io = false → ∀ x p, view (c :: mt.lowers.map d.content) (x :: p) = none) ∧
    d' = (d.put mt.upper c).setMdir n ((d.mdir n).map fun x => { x with work := wk })

theorem removeMount_wp {d : Disk} {m : MountObj} (hm : m.dir = m.id.base32) :
    wpm E f (Removing f m.id.base32 d) (removeMount m) (fun _ d' => d' = removed m.id.base32 d)
      (fun e d' => Removing f m.id.base32 d d' ∧ e.early = false ∧ (f.io = true ∨ Wiped f m.id.base32 d d')) d := by
  generalize hn : m.id.base32 = n at *
  unfold removeMount
  rw [hm, hn]
  have I0 : Removing f n d d := ⟨Or.inl rfl, rfl, fun _ _ => rfl, Or.inl rfl, rfl, fun _ _ => rfl, fun h => h, fun _ _ => rfl, Or.inl rfl, rfl⟩
  refine wpm_must fun a d1 h1 => ?_
  rcases h1 with ⟨rfl, -, rfl⟩ | ⟨rfl, h1, rfl⟩
  rotate_left
  · refine ⟨I0, nofun, fun _ => ⟨I0, rfl, Or.inl ?_⟩⟩
    rcases h1 with h1 | h1
    · exact absurd trivial h1
    · exact h1
  refine ⟨I0, fun _ => ?_, nofun⟩
  refine wpm_must fun a d2 h2 => ?_
  rcases h2 with ⟨rfl, -, rfl⟩ | ⟨rfl, h2, rfl⟩
  rotate_left
  · refine ⟨I0, nofun, fun _ => ⟨I0, rfl, Or.inl ?_⟩⟩
    rcases h2 with h2 | h2
    · exact absurd trivial h2
    · exact h2
  refine ⟨I0, fun _ => ?_, nofun⟩
  -- after the unmount
  refine wpm_call fun a d3 h3 => ?_
  have key : d3 = d2.setMnt n none ∨ (d3 = d2 ∧ ∃ mt, d2.mnt n = some mt ∧ (f.io = true ∨ f.busy = true)) := by
    rcases h3 with ⟨rfl, hne, rfl⟩ | ⟨rfl, rfl, h3⟩
    · exact Or.inl rfl
    · cases hmn : d3.mnt n with
      | none =>
        left
        have : upd d3.mnt n none = d3.mnt := upd_id hmn
        simp only [Disk.setMnt, this]
      | some mt =>
        refine Or.inr ⟨rfl, mt, rfl, ?_⟩
        rcases h3 with h3 | h3 | h3
        · rw [hmn] at h3; cases h3
        · exact Or.inr h3
        · exact Or.inl h3
  rcases key with rfl | ⟨rfl, mt, hmn, hbad⟩
  · refine ⟨⟨Or.inl rfl, rfl, fun _ _ => rfl, Or.inl rfl, rfl, fun _ _ => rfl, fun h => h, fun n' h => upd_ne _ _ h, Or.inr (by simp [Disk.setMnt]), rfl⟩, ?_⟩
    have hnone : (d2.setMnt n none).mnt n = none := by simp [Disk.setMnt]
    have hmk : ∀ (x : Option MDir) (y : Option Str), (d2.mdir n = none → x = none) → (y = d2.info n ∨ y = none) →
        Removing f n d2 (((d2.setMnt n none).setMdir n x).setInfo n y) := by
      intro x y hx hy
      refine ⟨Or.inl rfl, rfl, fun n' h => upd_ne _ _ h, ?_, rfl, fun n' h => upd_ne _ _ h, fun h => ?_, fun n' h => upd_ne _ _ h, Or.inr ?_, rfl⟩
      · simpa [Disk.setInfo] using hy
      · simpa [Disk.setInfo, Disk.setMdir] using hx h
      · simp [Disk.setInfo, Disk.setMdir, Disk.setMnt]
    have hmk' : ∀ (x : Option MDir), (d2.mdir n = none → x = none) → Removing f n d2 ((d2.setMnt n none).setMdir n x) := by
      intro x hx
      have := hmk x (d2.info n) hx (Or.inl rfl)
      have e : (((d2.setMnt n none).setMdir n x).setInfo n (d2.info n)) = (d2.setMnt n none).setMdir n x := by
        have : upd d2.info n (d2.info n) = d2.info := upd_id rfl
        simp only [Disk.setInfo, Disk.setMdir, Disk.setMnt, this]
      rwa [e] at this
    refine wpm_must fun a d4 h4 => ?_
    simp only [Step, hnone] at h4
    rcases h4 with ⟨rfl, rfl⟩ | ⟨rfl, hio, md, md', h4, rfl⟩
    rotate_left
    · have h4' : d2.mdir n = some md := h4
      have := hmk' (some md') (fun h => by rw [h] at h4'; cases h4')
      exact ⟨this, nofun, fun _ => ⟨this, rfl, Or.inl hio⟩⟩
    have I4 := hmk' none (fun _ => rfl)
    refine ⟨I4, fun _ => ?_, nofun⟩
    refine wpm_call fun a d5 h5 => ?_
    have hfin : ∀ d5, d5 = removed n d2 → wpm E f (Removing f n d2) (do need (← ask (.sys .chdirBack)) .cwd) (fun _ d' => d' = removed n d2)
        (fun e d' => Removing f n d2 d' ∧ e.early = false ∧ (f.io = true ∨ Wiped f n d2 d')) d5 := by
      rintro d5 rfl
      have IR : Removing f n d2 (removed n d2) := hmk none none (fun _ => rfl) (Or.inr rfl)
      refine wpm_bind (wpm_ask fun a d6 h6 => ?_)
      rcases h6 with ⟨rfl, -, rfl⟩ | ⟨rfl, h6, rfl⟩
      · exact ⟨IR, wpm_need (fun _ => rfl) nofun⟩
      · refine ⟨IR, wpm_need nofun fun _ => ⟨IR, rfl, Or.inl ?_⟩⟩
        rcases h6 with h6 | h6
        · exact absurd trivial h6
        · exact h6
    rcases h5 with ⟨rfl, -, rfl⟩ | ⟨rfl, h5, rfl⟩ | ⟨rfl, hio, rfl⟩
    · exact ⟨hmk none none (fun _ => rfl) (Or.inr rfl), hfin _ rfl⟩
    · refine ⟨I4, hfin _ ?_⟩
      have h5' : d2.info n = none := h5
      have : upd d2.info n none = d2.info := upd_id h5'
      simp only [removed, Disk.setInfo, Disk.setMdir, Disk.setMnt, this]
    · exact ⟨I4, wpm_fail ⟨I4, rfl, Or.inl hio⟩⟩
  · refine ⟨I0, wpm_must fun a d4 h4 => ?_⟩
    simp only [Step, hmn] at h4
    obtain ⟨rfl, c', wk, hvis, rfl⟩ := h4
    have hp : ∀ (x : Disk) (v : UID) (c : Content), (x.put v c).space = x.space ∧ (x.put v c).info = x.info ∧ (x.put v c).used = x.used ∧
        (x.put v c).mdir = x.mdir ∧ (x.put v c).mnt = x.mnt ∧ (x.put v c).user = x.user := by
      intro x v c
      unfold Disk.put
      split <;> exact ⟨rfl, rfl, rfl, rfl, rfl, rfl⟩
    obtain ⟨p1, p2, p3, p4, p5, p6⟩ := hp d3 mt.upper c'
    have I4 : Removing f n d3 ((d3.put mt.upper c').setMdir n ((d3.mdir n).map fun x => { x with work := wk })) := by
      refine ⟨Or.inr ⟨hbad.symm, mt, c', hmn, rfl⟩, p1, fun n' _ => congrFun p2 n', Or.inl (congrFun p2 n), p3, fun n' h => ?_, fun h => ?_,
        fun n' _ => congrFun p5 n', Or.inl (congrFun p5 n), p6⟩
      · simp only [Disk.setMdir, upd_ne _ _ h, p4]
      · simp only [Disk.setMdir, upd_self, h, Option.map_none]
    refine ⟨I4, nofun, fun _ => ⟨I4, rfl, ?_⟩⟩
    rcases hbad with h | h
    · exact Or.inl h
    · refine Or.inr ⟨h, mt, c', wk, hmn, fun hio x p => ?_, rfl⟩
      rcases hvis x p with hv | hv
      · exact hv
      · rw [hio] at hv; cases hv.1

/-! ## Opening -/

/-- Where a link of the user leads. -/
def UEnt.target : UEnt → Option Str
  | .link t => some t
  | _ => Option.none

/-- The bytes are read as the saved tree `T`: a text that saving `T` may write, possibly with something behind it that does
not matter. A read that stops early gives an error or the same. -/
structure Reads (T : TS) (b : Str) : Prop where
  ok : T.abs.Shallow → ∃ s', spaceLoad (.ok b) = .ok s' ∧ Reach s' ∧ ComesBack T.abs s'.abs
  deep : ¬ T.abs.Shallow → ∃ e, spaceLoad (.ok b) = .err e
  torn : ∀ q, q <+: b → (∃ e, spaceLoad (.failed q) = .err e) ∨ spaceLoad (.failed q) = spaceLoad (.ok b)

theorem reads_saved {T : TS} {sh : Bool} {b : Str} (hr : Reach T) (h : SavesAs sh T b) : Reads T b :=
  ⟨(load_saved hr h).1, fun hS => ⟨_, (load_saved hr h).2 hS⟩, fun _ hq => (C18_read_error h hq).imp (fun he => ⟨_, he⟩) fun he => he.2⟩

/-- The files on disk that make the path a workspace: `w` is what opening gives, `u` its working layer, `p` its last
commit. -/
structure Opens (E : Env) (d : Disk) (cwd path : Str) (w : OpenWs) (u p : UID) : Prop where
  out : E.Outside (Path.abs cwd path)
  link : ∃ t, d.user (Path.abs cwd path) = .link t ∧ mountIDOf E.root cwd path (some t) = .ok w.mount.id
  path : w.ws.path = Path.abs cwd path
  info : ∃ i, d.info w.mount.id.base32 = some (marshalInfo E.sh i) ∧ i.id = w.ws.id.base32 ∧ i.spaceID = w.spaceID.base32 ∧
    i.mountID = w.mount.id.base32 ∧ i.head = u.hex ∧ sanitize i.branch = w.ws.branch
  mount : w.mount = ⟨w.mount.id, w.mount.id.base32, none⟩
  dir : w.spaceDir = w.spaceID.base32
  tree : ∃ T b, Reach T ∧ Reads T b ∧ d.space w.spaceDir = some (some b) ∧ spaceLoad (.ok b) = .ok w.tree
  head : w.ws.HeadAt w.tree u p
  stored : Stored d w.tree.abs

theorem base32_ascii (u : UID) : ∀ b ∈ u.base32, b < (0x80 : UInt8) := by
  have hc : ∀ c ∈ base32Chars, c < (0x80 : UInt8) := by decide
  intro b hb
  have h := (C05_base32_decode_iff u.base32 u).1 (C02_base32_roundtrip u)
  exact hc b (h.2.1 b hb)

theorem sanitize_base32 (u : UID) : sanitize u.base32 = u.base32 := sanitize_ascii (base32_ascii u)

theorem opens_reach {d : Disk} {cwd path : Str} {w : OpenWs} {u p : UID} (h : Opens E d cwd path w u p) : Reach w.tree := by
  obtain ⟨T, b, h1, h2, _, h3⟩ := h.tree
  by_cases hS : T.abs.Shallow
  · obtain ⟨s', e1, e2, _⟩ := h2.ok hS
    rw [h3] at e1; cases e1
    exact e2
  · obtain ⟨e, he⟩ := h2.deep hS
    rw [he] at h3; cases h3

theorem linkOf_wp {d : Disk} {p : Str} (hoff : E.Off p) :
    wpm E f (fun d' => d' = d) (linkOf p) (fun l d' => d' = d ∧ (l = (d.user p).target ∨ f.io = true ∧ l = none))
      (fun e d' => d' = d ∧ e.early = true ∧ f.io = true) d := by
  unfold linkOf
  refine wpm_call fun a d1 h1 => ?_
  obtain ⟨rfl, h1⟩ := h1
  refine ⟨rfl, ?_⟩
  have hno := off_not hoff
  cases a with
  | false =>
    simp only [Bool.false_eq_true, if_false]
    refine wpm_pure ⟨rfl, ?_⟩
    rcases h1 with h1 | h1 | h1
    · left
      cases hu : d1.user p with
      | link t => exact absurd (h1.2 ⟨t, hu⟩) (by simp)
      | _ => rw [UEnt.target.eq_def]
    · exact absurd h1 hno
    · exact Or.inr ⟨h1.2, rfl⟩
  | true =>
    simp only [if_true]
    have hl : ∃ t, d1.user p = .link t := by
      rcases h1 with h1 | h1 | h1
      · exact h1.1 rfl
      · exact absurd h1 hno
      · cases h1.1
    obtain ⟨t, ht⟩ := hl
    refine wpm_call fun r d2 h2 => ?_
    obtain ⟨rfl, h2⟩ := h2
    refine ⟨rfl, ?_⟩
    rcases h2 with ⟨t', h2, rfl⟩ | h2 | ⟨rfl, h2⟩
    · rw [ht] at h2; cases h2
      exact wpm_pure ⟨rfl, Or.inl (by rw [ht]; rfl)⟩
    · exact absurd h2 hno
    · refine wpm_fail ⟨rfl, rfl, ?_⟩
      rcases h2 with h2 | h2
      · exact absurd ht (h2 t)
      · exact h2

theorem leads_mountPath (cwd path : Str) (m : UID) : mountIDOf E.root cwd path (some (E.mountPath m.base32)) = .ok m :=
  (C44_mount_path E.root cwd path m [lit "merged"] (by
    intro c hc
    rw [List.mem_singleton] at hc
    subst hc
    exact ⟨by decide, by decide, by decide, by decide⟩)).1

theorem leads_outside {cwd path : Str} (h : E.Outside (Path.abs cwd path)) : ∃ e, mountIDOf E.root cwd path none = .err e := by
  rw [mountIDOf_eq]
  have ht : targetOf cwd path none = Path.comps (Path.abs cwd path) := targetOf_none _ _
  rcases Path.relComps_head (Path.comps E.root ++ [lit "mounts"]) (targetOf cwd path none) with ⟨x, rest, h1, h2⟩ | ⟨h1, rest, h2⟩
  · refine absurd ?_ (h (x :: rest))
    rw [← ht, h1]; simp
  · rcases h2 with h2 | h2 <;> rw [h2, List.headD_cons]
    · exact ⟨_, rfl⟩
    · exact ⟨_, rfl⟩

theorem getWorkspace_wp {d : Disk} {cwd path : Str} {w : OpenWs} {u p : UID} (h : Opens E d cwd path w u p) :
    wpm E f (fun d' => d' = d) (getWorkspace E cwd path) (fun w' d' => w' = w ∧ d' = d)
      (fun e d' => d' = d ∧ e.early = true ∧ f.io = true) d := by
  unfold getWorkspace
  refine wpm_bind (wpm_mono (linkOf_wp (off_of_outside h.out)) (fun l d1 h1 => ?_) fun e d1 h1 => h1)
  obtain ⟨rfl, rfl | ⟨h1, rfl⟩⟩ := h1
  · refine wpm_bind (wpm_lift_ok (by obtain ⟨t, e1, e2⟩ := h.link; rw [e1]; exact e2) ?_)
    unfold loadInfo
    refine wpm_bind (wpm_call fun r d2 h2 => ?_)
    obtain ⟨rfl, h2⟩ := h2
    refine ⟨rfl, ?_⟩
    obtain ⟨i, e1, e2, e3, e4, e5, e6⟩ := h.info
    rw [e1] at h2
    cases r with
    | ok b =>
      simp only [Option.some.injEq] at h2
      subst h2
      refine wpm_lift_ok (a := ⟨sanitize i.id, sanitize i.path, sanitize i.head, sanitize i.spaceID, sanitize i.mountID, sanitize i.branch⟩)
        (by rw [C17_info_roundtrip]) ?_
      simp only [e2, e3, e4, e5, e6, sanitize_base32, sanitize_hex]
      refine wpm_bind (wpm_lift_ok (C02_base32_roundtrip _) ?_)
      refine wpm_bind (wpm_lift_ok (C02_base32_roundtrip _) ?_)
      refine wpm_call fun r d3 h3 => ?_
      obtain ⟨rfl, h3⟩ := h3
      refine ⟨rfl, ?_⟩
      obtain ⟨T, b, t1, t2, t3, t4⟩ := h.tree
      rw [h.dir] at t3
      have es : sanitize i.spaceID = w.spaceID.base32 := by rw [e3, sanitize_base32]
      rw [es, t3] at h3
      have fin : ∀ d', d' = d3 → wpm E f (fun d' => d' = d3)
          (match w.tree.get u with
            | none => fail .headMissing
            | some r => return ⟨w.tree, w.spaceID, w.spaceID.base32, ⟨w.mount.id, w.mount.id.base32, none⟩, ⟨w.ws.id, Path.abs cwd path, r, w.ws.branch⟩⟩)
          (fun w' d' => w' = w ∧ d' = d3) (fun e d' => d' = d3 ∧ e.early = true ∧ f.io = true) d' := by
        rintro d' rfl
        rw [h.head.1]
        refine wpm_pure ⟨?_, rfl⟩
        have hm := h.mount
        have hd := h.dir
        have hp := h.path
        obtain ⟨wt, wsid, wsd, wm, ww⟩ := w
        obtain ⟨x1, x2, x3, x4⟩ := ww
        simp only at hm hd hp ⊢
        rw [hm, hd, hp]
      cases r with
      | ok b' =>
        simp only [Option.some.injEq] at h3
        subst h3
        refine wpm_bind (wpm_lift_ok t4 ?_)
        refine wpm_bind (wpm_lift_ok (C01_hex_roundtrip _) ?_)
        exact fin _ rfl
      | notExist => simp at h3
      | failed b' =>
        obtain ⟨hio, full, hb, hpre⟩ := h3
        simp only [Option.some.injEq] at hb
        subst hb
        rcases t2.torn _ hpre with ⟨e, he⟩ | he
        · exact wpm_bind (wpm_lift_err he ⟨rfl, rfl, hio⟩)
        · rw [t4] at he
          refine wpm_bind (wpm_lift_ok he ?_)
          refine wpm_bind (wpm_lift_ok (C01_hex_roundtrip _) ?_)
          exact fin _ rfl
    | notExist => simp at h2
    | failed b => exact wpm_fail ⟨rfl, rfl, h2.1⟩
  · obtain ⟨e, he⟩ := leads_outside h.out
    exact wpm_bind (wpm_lift_err he ⟨rfl, rfl, h1⟩)

end
end Verif
