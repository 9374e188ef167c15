import Verif.World.OwnInv
/-!
# Disks that any history leaves

Commands that ran at the same time, failed or were killed leave a disk like one that commands run one after another leave,
except for two kinds of remains, which `Orderly` excludes.
-/
set_option autoImplicit false
namespace Verif
open M TS Json

/-- * A record that can be read has its mount directory. (A command that is killed between removing the directory and removing the
  record of the mount that it gives up leaves a record without.)
* A tree file can be read, or no beginning of it can be. (When a shorter text is written over a longer one that another
  command has just written, a whole text is left with the rest of another one behind it.) -/
structure Orderly (d : Disk) : Prop where
  mdir : ∀ n b i, d.info n = some b → unmarshalInfo b = some i → d.mdir n ≠ none
  tree : ∀ n b, d.space n = some (some b) → (∃ s, spaceLoad (.ok b) = .ok s) ∨ ∀ q, q <+: b → ∃ e, spaceLoad (.ok q) = .err e

/-- The tree that a space file holds. -/
def treeAt (d : Disk) (n : Str) : Option TS :=
  match d.space n with
  | some (some b) =>
    match spaceLoad (.ok b) with
    | .ok s => some s
    | _ => none
  | _ => none

theorem treeAt_some {d : Disk} {n : Str} {s : TS} : treeAt d n = some s ↔ ∃ b, d.space n = some (some b) ∧ spaceLoad (.ok b) = .ok s := by
  unfold treeAt
  split
  · rename_i b hb
    split
    · rename_i s' hs
      constructor
      · intro h; cases h; exact ⟨b, hb, hs⟩
      · rintro ⟨b', h1, h2⟩
        rw [hb] at h1; cases h1
        rw [hs] at h2; cases h2; rfl
    · rename_i hne
      constructor
      · nofun
      · rintro ⟨b', h1, h2⟩
        rw [hb] at h1; cases h1
        exact absurd h2 (hne s)
  · rename_i hne
    constructor
    · nofun
    · rintro ⟨b, h1, _⟩; exact absurd h1 (hne b)

section
variable {E : Env} {par : Parents} {w : World}

/-- A tree that was loaded comes back as it is when it is saved again. -/
theorem filed_loaded {b : Str} {s : TS} (h : Filed E par b) (hs : spaceLoad (.ok b) = .ok s) :
    Reach s ∧ Fits par s.abs ∧ s.abs.Utf8 ∧ s.abs.Shallow ∧ NodeKeys s.abs ∧ Reads s b := by
  rcases h with rfl | ⟨T, full, h1, h2, h3, h4⟩
  · rw [load_empty] at hs; cases hs
  have hbf : spaceLoad (.ok b) = spaceLoad (.ok full) := by
    rcases load_around_total h2 h4 with he | ⟨e, he⟩
    · exact he
    · rw [hs] at he; cases he
  by_cases hS : T.abs.Shallow
  · obtain ⟨s', g1, g2, g3⟩ := (load_saved h1 h2).1 hS
    rw [hbf, g1] at hs
    cases hs
    have hu := comesBack_is_utf8 g3
    have hsh := comesBack_shallow g3 hS
    refine ⟨g2, fun u n hn => ?_, hu, hsh, nodeKeys_back g3, fun _ => ⟨s, hbf.trans g1, g2, ?_⟩, fun hn => absurd hsh hn, fun q hq => ?_⟩
    · cases hT : T.abs.node u with
      | none => rw [g3.gone u hT] at hn; cases hn
      | some m =>
        obtain ⟨n', e1, e2, _⟩ := g3.node u m hT
        rw [hn] at e1; cases e1
        rw [e2]; exact h3 u m hT
    · have := comesBack_san (wf_of_reach g2)
      rwa [comesBack_utf8 this hu] at this
    · have hq' : spaceLoad (.failed q) = spaceLoad (.ok q) := rfl
      rw [hq', hbf]
      exact (load_around_total h2 (prefix_around hq h4)).symm
  · rw [hbf, (load_saved h1 h2).2 hS] at hs; cases hs

/-- A record that can be read is whole. -/
theorem record_whole (ht : Tame E par w) (hr : Tied E w) {n b : Str} (hb : w.disk.info n = some b) {j : WsInfo} (hj : unmarshalInfo b = some j) :
    ∃ (r : WsRec) (q : UID), b = r.bytes E ∧ n = r.mount.base32 ∧ par r.head = some (some q) ∧ r.ws ∈ w.disk.used := by
  have hne : b ≠ [] := by rintro rfl; rw [unmarshal_none] at hj; cases hj
  rcases hr.recs.record n b hb with h0 | ⟨i, u, h1, h2, h3, _⟩
  · exact absurd h0 hne
  have hbi : b = marshalInfo E.sh i := by
    obtain ⟨t, ht⟩ := h1
    by_cases h0 : t = []
    · subst h0; rw [List.append_nil] at ht; exact ht
    · have := C18_info_torn E.sh i ht h0
      rw [hj] at this; cases this
  rcases ht.info n b hb with h0 | ⟨r, q, g1, g2⟩
  · exact absurd h0 hne
  have hbr : b = r.bytes E := by
    rcases g2 with ⟨t, ht⟩ | h
    · by_cases h0 : t = []
      · subst h0; rw [List.append_nil] at ht; exact ht
      · have := C18_info_torn E.sh r.info ht h0
        rw [hj] at this; cases this
    · rw [hbi] at h ⊢
      exact (record_full h).symm
  obtain ⟨e1, e2, e3, e4⟩ := record_eq (hbi.symm.trans hbr : marshalInfo E.sh i = marshalInfo E.sh r.info)
  obtain ⟨m, m1, m2, _⟩ := hr.recs.infoTaken n (by rw [hb]; simp)
  refine ⟨r, q, hbr, ?_, g1, ?_⟩
  · rw [h2, m2, sanitize_base32] at e4
    simp only [WsRec.info, sanitize_base32] at e4
    rw [m2, e4]
  · have := ided_decode (hr.ided n b hb) hj (x := r.ws) (by
      rw [hbr, WsRec.bytes, C17_info_roundtrip, Option.some.injEq] at hj
      rw [← hj]
      simp only [WsRec.info, sanitize_base32]
      exact C02_base32_roundtrip _)
    exact this

/-- Whatever ran and was killed, the disk is as good as one that commands run one after another leave. -/
theorem steady_orderly (ht : Tame E par w) (hr : Tied E w) (hs : Orderly w.disk) : Steady E w.disk (treeAt w.disk) := by
  have hfil : ∀ n T, treeAt w.disk n = some T → ∃ b, w.disk.space n = some (some b) ∧ Reach T ∧ Fits par T.abs ∧ NodeKeys T.abs ∧ Reads T b := by
    intro n T hT
    obtain ⟨b, h1, h2⟩ := treeAt_some.1 hT
    obtain ⟨g1, g2, _, _, g3, g4⟩ := filed_loaded (ht.space n b h1) h2
    exact ⟨b, h1, g1, g2, g3, g4⟩
  have hbelow : ∀ n T u q, treeAt w.disk n = some T → par u = some (some q) → T.abs.Has u → Below T.abs u q := by
    intro n T u q hT hq ⟨nd, hn⟩
    obtain ⟨_, _, _, hf, _⟩ := hfil n T hT
    have := hf u nd hn
    rw [hq, Option.some.injEq] at this
    exact ⟨nd, hn, this.symm⟩
  refine ⟨hr.tracked, fun n b hb => ?_, fun n T hT => ?_, fun n T hT => ?_, fun n T hT => ?_, fun n T hT => ?_, fun n x hx => ?_, fun n m hm => ?_, fun n n' r r' h1 h2 h3 => ?_⟩
  · by_cases h : ∃ s, spaceLoad (.ok b) = .ok s
    · obtain ⟨s, h⟩ := h
      exact Or.inl ⟨s, treeAt_some.2 ⟨b, hb, h⟩, (filed_loaded (ht.space n b hb) h).2.2.2.2.2⟩
    · refine Or.inr ⟨?_, ?_, ?_⟩
      · cases hT : treeAt w.disk n with
        | none => rfl
        | some T =>
          obtain ⟨b', h1, h2⟩ := treeAt_some.1 hT
          rw [hb, Option.some.injEq, Option.some.injEq] at h1
          exact absurd ⟨T, h1 ▸ h2⟩ h
      · rcases filed_load (ht.space n b hb) with he | ⟨s, h1, _⟩
        · exact he
        · exact absurd ⟨s, h1⟩ h
      · rcases hs.tree n b hb with h1 | h1
        · exact absurd h1 h
        · exact h1
  · obtain ⟨b, h1, _⟩ := hfil n T hT; exact ⟨b, h1⟩
  · obtain ⟨b, _, h1, _⟩ := hfil n T hT; exact h1
  · obtain ⟨b, _, _, h1, _⟩ := hfil n T hT
    rintro v ⟨nd, hn⟩
    exact ht.layers v _ (h1 v nd hn)
  · obtain ⟨b, _, _, _, h1, _⟩ := hfil n T hT; exact h1
  · cases hj : unmarshalInfo x with
    | none => exact Or.inl rfl
    | some j =>
      obtain ⟨r, q, h1, h2, h3, _⟩ := record_whole ht hr hx hj
      exact Or.inr ⟨r, h1, h2, hs.mdir n x j hx hj, ht.layers _ _ h3, fun T hT hh => ⟨q, hbelow _ T _ q hT h3 hh⟩⟩
  · obtain ⟨_, _, b, h1, i, h2, h3, h4⟩ := hr.mounted n m hm
    obtain ⟨p, h5, h6⟩ := ht.mounted n m hm
    have hj : ∃ j, unmarshalInfo b = some j := by rw [h2, C17_info_roundtrip]; exact ⟨_, rfl⟩
    obtain ⟨j, hj⟩ := hj
    obtain ⟨r, q, g1, g2, g3, _⟩ := record_whole ht hr h1 hj
    have hu : m.upper = r.head := by
      have := (record_eq (h2.symm.trans g1 : marshalInfo E.sh i = marshalInfo E.sh r.info)).2.1
      rw [h3] at this
      exact hex_of_sanitized this
    refine ⟨r, g1 ▸ h1, hu, fun v hv => hr.recs.inv.live n m hm v (.tail _ hv), fun T p' hT hb => ?_⟩
    obtain ⟨nd, e1, e2⟩ := hb
    obtain ⟨_, _, hre, hf, _⟩ := hfil _ T hT
    have hp : p' = p := by
      have := hf _ nd e1
      rw [← hu, h5, e2] at this
      simpa using this.symm
    subst hp
    obtain ⟨l, hl⟩ := (reach_rooted hre).path p' ((reach_rooted hre).parent _ _ _ e1 e2)
    rw [line_unique h6 (line_path hf hl)]; exact hl
  · exact hr.heads n n' r.info r'.info r.head h1 h2 rfl (by rw [h3]; rfl)

end

/-- A disk that any history left which began before the program ever ran: commands at the same time, killed at any moment,
calls that fail, writes that stop half way, changes of the user's files, restarts. Two things are excluded: the random
generator repeats no ID, and no command has its write fail after another has written into the same file in between
(`Sys.Tidy`; `C71_apart` and `C71_no_failing_writes` say when no command does). -/
def Legacy (E : Env) (d : Disk) : Prop :=
  ∃ (f : Faults) (w0 w : World), f.rep = false ∧ (∀ i, w0.procs i = none) ∧ Untouched w0.disk ∧ Sys.Tidy E f w0 w ∧ w.disk = d ∧ Orderly d

theorem bare_of_untouched {w : World} (hi : ∀ i, w.procs i = none) (h : Untouched w.disk) : Bare w ∧ Tracked w.disk :=
  ⟨⟨hi, fun _ => by rw [h.mnt], fun _ => by rw [h.space], fun _ => by rw [h.info]⟩, (steady_untouched (E := ⟨[], false, 0⟩) h).tracked⟩

theorem legacy_untouched {E : Env} {d : Disk} (h : Untouched d) : Legacy E d :=
  ⟨Faults.none, ⟨d, fun _ => none⟩, _, rfl, fun _ => rfl, h, .refl _, rfl,
    ⟨fun n b i hb => (by rw [h.info] at hb; cases hb), fun n b hb => (by rw [h.space] at hb; cases hb)⟩⟩

/-- What the theorems about single commands start from. -/
theorem legacy_sound {E : Env} {d : Disk} (h : Legacy E d) :
    (∃ g, Steady E d g) ∧ (∀ n (r : WsRec), d.info n = some (r.bytes E) → r.ws ∈ d.used) ∧
      ∀ n b s, d.space n = some (some b) → spaceLoad (.ok b) = .ok s → Owned (· ∈ d.used) s.abs := by
  obtain ⟨f, w0, w, hf, hi, h0, ht, rfl, ho⟩ := h
  obtain ⟨hb, htr⟩ := bare_of_untouched hi h0
  obtain ⟨par, h1, h2, h3⟩ := fair_tidy hf (fair_bare hb) (tame_bare hb) (tied_bare (E := E) hb htr) ht
  refine ⟨⟨_, steady_orderly h1 h2 ho⟩, fun n r hr => ?_, fun n b s hb hl => h3.space n b b s hb (List.prefix_refl _) hl⟩
  obtain ⟨r', _, e, _, _, hu⟩ := record_whole h1 h2 hr (j := _) (by rw [WsRec.bytes]; exact C17_info_roundtrip _ _)
  rw [(rec_bytes_inj e).1]; exact hu

end Verif
