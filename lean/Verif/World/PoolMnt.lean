import Verif.World.PoolRec
import Verif.World.WholeInv
/-!
# Mounts and their records

What else holds if the random generator does not repeat an ID: everything in the data directory has the name of an ID that
was drawn, every mount has its record, and no two records name the same working layer.
-/
set_option autoImplicit false
namespace Verif
open M TS Json

/-- How the directory of a space can appear. -/
theorem eff_space_new {e : Ev} {d d' : Disk} (h : Effect e d d') {n : Str} (hn : d.space n = none) : d'.space n = none ∨ e = ⟨.mkdirSpace n, true⟩ := by
  cases h with
  | @mkSpace n' _ h0 =>
    by_cases hx : n = n'
    · subst hx; exact Or.inr rfl
    · exact Or.inl (by simp only [Disk.setSpace, upd_ne _ _ hx, hn])
  | @truncTree n' _ h0 =>
    by_cases hx : n = n'
    · subst hx; exact absurd hn h0
    · exact Or.inl (by simp only [Disk.setSpace, upd_ne _ _ hx, hn])
  | @writeTree n' b p old x _ h0 h1 h2 =>
    by_cases hx : n = n'
    · subst hx; rw [hn] at h0; cases h0
    · exact Or.inl (by simp only [Disk.setSpace, upd_ne _ _ hx, hn])
  | upper e c h0 => rw [(put_rest d _ c).1]; exact Or.inl hn
  | wipe c w h0 =>
    left
    simp only [Disk.setMdir]
    rw [(put_rest d _ c).1]; exact hn
  | _ => exact Or.inl hn

theorem unmarshal_none : unmarshalInfo [] = none := rfl

/-- A record that is the beginning of a record is all of it. -/
theorem record_full {sh : Bool} {i j : WsInfo} (h : marshalInfo sh i <+: marshalInfo sh j) : marshalInfo sh i = marshalInfo sh j := by
  obtain ⟨q, hq⟩ := h
  by_cases he : q = []
  · subst he; simpa using hq
  · have := C18_info_torn sh j hq he
    rw [C17_info_roundtrip] at this; cases this

theorem record_eq {sh : Bool} {i j : WsInfo} (h : marshalInfo sh i = marshalInfo sh j) :
    sanitize i.id = sanitize j.id ∧ sanitize i.head = sanitize j.head ∧ sanitize i.spaceID = sanitize j.spaceID ∧ sanitize i.mountID = sanitize j.mountID := by
  have h1 := C17_info_roundtrip sh i
  rw [h, C17_info_roundtrip] at h1
  simp only [Option.some.injEq, WsInfo.mk.injEq] at h1
  exact ⟨h1.1.symm, h1.2.2.1.symm, h1.2.2.2.1.symm, h1.2.2.2.2.1.symm⟩

theorem hex_of_sanitized {u v : UID} (h : sanitize u.hex = sanitize v.hex) : u = v := by
  rw [sanitize_hex, sanitize_hex] at h
  exact C03_hex_injective h

/-- The bytes are empty, or (the beginning of) a record of a workspace with an ID that was drawn. -/
def Ided (E : Env) (d : Disk) (b : Str) : Prop := b = [] ∨ ∃ (i : WsInfo) (x : UID), b <+: marshalInfo E.sh i ∧ i.id = x.base32 ∧ x ∈ d.used

theorem ided_mono {E : Env} {d d' : Disk} {b : Str} (hu : ∀ u ∈ d.used, u ∈ d'.used) (h : Ided E d b) : Ided E d' b := by
  rcases h with h | ⟨i, x, h1, h2, h3⟩
  · exact Or.inl h
  · exact Or.inr ⟨i, x, h1, h2, hu x h3⟩

theorem ided_decode {E : Env} {d : Disk} {b : Str} (h : Ided E d b) {i : WsInfo} (hi : unmarshalInfo b = some i) {x : UID} (hx : UID.decodeBase32 i.id = .ok x) :
    x ∈ d.used := by
  rcases h with rfl | ⟨j, y, ⟨q, hq⟩, h2, h3⟩
  · exact absurd hi (by rw [unmarshal_none]; simp)
  · by_cases he : q = []
    · subst he
      rw [List.append_nil] at hq
      subst hq
      rw [C17_info_roundtrip] at hi
      cases hi
      rw [h2, sanitize_base32, C02_base32_roundtrip] at hx
      cases hx; exact h3
    · rw [C18_info_torn E.sh j hq he] at hi; cases hi

/-- The invariant. -/
structure Tied (E : Env) (w : World) : Prop where
  recs : Rec E w
  drawn : ∀ i p m, w.procs i = some p → (⟨.rand, m⟩ : Ev) ∈ p.tr → m ∈ w.disk.used
  tracked : Tracked w.disk
  ided : ∀ n b, w.disk.info n = some b → Ided E w.disk b
  idRead : ∀ i p n b, w.procs i = some p → (⟨.readInfo n, .ok b⟩ : Ev) ∈ p.tr → Ided E w.disk b
  wroteNamed : ∀ i p n b, w.procs i = some p → Wrote p.tr n b → Named p.tr n
  begun : ∀ i p n, w.procs i = some p → (⟨.truncInfo n, true⟩ : Ev) ∈ p.tr → w.disk.info n ≠ none ∨ Dead w n
  stored : ∀ i p n b, w.procs i = some p → WroteOk p.tr n b → w.disk.info n = some b ∨ Dead w n
  mounted : ∀ n m, w.disk.mnt n = some m → Taken w n ∧ (∀ i p, w.procs i = some p → Named p.tr n → WroteAny p.tr) ∧
    ∃ b, w.disk.info n = some b ∧ RecordOf E b n m.upper
  heads : ∀ n n' i i' u, w.disk.info n = some (marshalInfo E.sh i) → w.disk.info n' = some (marshalInfo E.sh i') → i.head = UID.hex u → i'.head = UID.hex u →
    n = n'

section
variable {E : Env} {w w' : World} {e : Ev}

theorem tied_move (hr : Tied E w) (hi' : Inv E w') (hm : Move E w w' e) : Tied E w' := by
  have hR := hr.recs
  have hR' := rec_move hR hi' hm
  have hused : ∀ u ∈ w.disk.used, u ∈ w'.disk.used := fun u hu => eff_used_mem hm.eff hu
  have hdrawn : ∀ i p' m, w'.procs i = some p' → (⟨.rand, m⟩ : Ev) ∈ p'.tr → m ∈ w'.disk.used := by
    intro i p' m hp' hx
    obtain ⟨p, hp, h1 | ⟨h1, _, _⟩⟩ := move_mem hm hp' hx
    · exact hused m (hr.drawn i p m hp h1)
    · rw [(hm.fresh m h1.symm).2]; simp
  have htk : ∀ n, Taken w' n → ∃ u ∈ w'.disk.used, n = u.base32 := fun n ⟨m, h1, h2, _⟩ => ⟨m, h1, h2⟩
  -- a record that a step removes belongs to a mount that is gone
  have hgone : ∀ n, e = ⟨.removeInfo n, .ok⟩ → Dead w n := by
    intro n he
    obtain ⟨i, p, _, hp, hg, _⟩ := mover_of hm he ⟨by simp, by simp⟩
    exact hR.removed i p n hp hg
  have hwn : ∀ i p' n b, w'.procs i = some p' → Wrote p'.tr n b → Named p'.tr n := by
    rintro i p' n b hp' ⟨x, hx⟩
    have hne : p'.tr ≠ [] := by intro h0; rw [h0] at hx; cases hx
    obtain ⟨p, hp, h1 | ⟨h1, hg, ht⟩⟩ := move_mem hm hp' hx
    · have := hr.wroteNamed i p n b hp ⟨x, h1⟩
      exact move_keep hm hp hp' (Or.inr this) hne this
    · subst h1
      rw [ht]; exact List.mem_cons_of_mem _ hg.1
  have hided : ∀ n b, w'.disk.info n = some b → Ided E w'.disk b := by
    intro n b hb
    rcases eff_info hm.eff n with h2 | ⟨_, h2⟩ | ⟨_, h2⟩ | ⟨b', pr, old, x, h2, h3, h4, _, h5⟩
    · rw [h2] at hb; exact ided_mono hused (hr.ided n b hb)
    · rw [h2] at hb; cases hb
    · rw [h2] at hb; cases hb; exact Or.inl rfl
    · obtain ⟨j, q, q', hq, hg, _⟩ := mover_of hm h2 ⟨by simp, by simp⟩
      obtain ⟨hn, hnw, _, ⟨i, y, hi1, hi2, hi3⟩, _⟩ := hg
      have hold := hR.unwritten j q n old hq hn hnw h3
      subst hold
      rw [h5] at hb
      have hbp : b = pr := by simpa [overwrite] using hb.symm
      subst hbp
      refine Or.inr ⟨i, y, hi1 ▸ h4, hi2, ?_⟩
      rcases hi3 with h6 | ⟨n1, b1, i1, h6, h7, h8⟩
      · exact hused y (hr.drawn j q y hq h6)
      · exact hused y (ided_decode (hr.idRead j q n1 b1 hq h6) h7 h8)
  -- a record that somebody has written completely is not written again
  have hkeep : ∀ n b, w.disk.info n = some b → (∀ i p, w.procs i = some p → Named p.tr n → WroteAny p.tr) →
      w'.disk.info n = some b ∨ Dead w n := by
    intro n b hb hw
    rcases eff_info hm.eff n with h2 | ⟨h2, _⟩ | ⟨h2, _⟩ | ⟨b', pr, old, x, h2, _⟩
    · left; rw [h2]; exact hb
    · exact Or.inr (hgone n h2)
    · obtain ⟨j, q, _, hq, hg, _⟩ := mover_of hm h2 ⟨by simp, by simp⟩
      exact absurd (hw j q hq hg.1) hg.2
    · obtain ⟨j, q, _, hq, hg, _⟩ := mover_of hm h2 ⟨by simp, by simp⟩
      exact absurd (hw j q hq hg.1) hg.2.1
  have hbegun : ∀ i p' n, w'.procs i = some p' → (⟨.truncInfo n, true⟩ : Ev) ∈ p'.tr → w'.disk.info n ≠ none ∨ Dead w' n := by
    intro i p' n hp' hx
    obtain ⟨p, hp, h1 | ⟨h1, _, _⟩⟩ := move_mem hm hp' hx
    · rcases hr.begun i p n hp h1 with h2 | h2
      · rcases eff_info hm.eff n with h3 | ⟨h3, _⟩ | ⟨_, h3⟩ | ⟨b', pr, old, x, _, _, _, _, h3⟩
        · left; rw [h3]; exact h2
        · exact Or.inr (dead_move hm (hgone n h3))
        · left; rw [h3]; simp
        · left; rw [h3]; simp
      · exact Or.inr (dead_move hm h2)
    · left; rw [hm.emptied n h1.symm]; simp
  have hstored : ∀ i p' n b, w'.procs i = some p' → WroteOk p'.tr n b → w'.disk.info n = some b ∨ Dead w' n := by
    intro i p' n b hp' hx
    obtain ⟨p, hp, h1 | ⟨h1, hg, _⟩⟩ := move_mem hm hp' hx
    · rcases hr.stored i p n b hp h1 with h2 | h2
      · refine (hkeep n b h2 fun j q hq hn => ?_).imp (fun h => h) (dead_move hm)
        have hn' := hr.wroteNamed i p n b hp ⟨_, h1⟩
        have := hR.namedUniq i j p q n hp hq hn' hn
        subst this
        rw [hp] at hq; cases hq
        exact ⟨n, b, _, h1⟩
      · exact Or.inr (dead_move hm h2)
    · have he := h1.symm
      subst h1
      obtain ⟨hn, hnw, _, _, ht⟩ := hg
      rcases hr.begun i p n hp ht with h2 | h2
      · cases h3 : w.disk.info n with
        | none => exact absurd h3 h2
        | some old =>
          have hold := hR.unwritten i p n old hp hn hnw h3
          subst hold
          left
          rw [hm.wrote n b he [] h3]; simp [overwrite]
      · exact Or.inr (dead_move hm h2)
  constructor
  · exact hR'
  · exact hdrawn
  · constructor
    · intro u hu
      by_cases h0 : w.disk.layer u = none
      · rcases eff_layer hm.eff u with h1 | ⟨h1, _⟩ | ⟨_, h1, _⟩ | ⟨n, m, c, _, _, ⟨_, h1⟩, _⟩
        · rw [h1] at hu; exact absurd h0 hu
        · obtain ⟨i, p, _, hp, hg, _⟩ := mover_of hm h1 ⟨by simp, by simp⟩
          exact hused u (hr.drawn i p u hp hg)
        · rw [h0] at h1; cases h1
        · rw [h0] at h1; cases h1
      · exact hused u (hr.tracked.layer u h0)
    · intro n hn
      by_cases h0 : w.disk.space n = none
      · rcases eff_space_new hm.eff h0 with h1 | h1
        · exact absurd h1 hn
        · obtain ⟨i, p, _, hp, ⟨m, hm1, hm2⟩, _⟩ := mover_of hm h1 ⟨by simp, by simp⟩
          exact ⟨m, hused m (hr.drawn i p m hp hm2), hm1⟩
      · obtain ⟨u, h1, h2⟩ := hr.tracked.space n h0
        exact ⟨u, hused u h1, h2⟩
    · intro n hn
      by_cases h0 : w.disk.mdir n = none
      · rcases eff_mdir hm.eff h0 with h1 | h1
        · exact absurd h1 hn
        · obtain ⟨i, p, _, hp, ⟨m, tl, hm1, hm2⟩, _⟩ := mover_of hm h1 ⟨by simp, by simp⟩
          exact ⟨m, hused m (hr.drawn i p m hp (by rw [hm2]; simp)), hm1⟩
      · obtain ⟨u, h1, h2⟩ := hr.tracked.mdir n h0
        exact ⟨u, hused u h1, h2⟩
    · intro n hn
      exact htk n (hR'.infoTaken n hn)
    · intro n hn
      cases h1 : w'.disk.mnt n with
      | none => exact absurd h1 hn
      | some m =>
        rcases eff_mnt hm.eff h1 with h2 | ⟨h2, _⟩
        · exact htk n (taken_move hm (hr.mounted n m h2).1)
        · obtain ⟨i, p, _, hp, hg, _⟩ := mover_of hm h2 ⟨by simp, by simp⟩
          exact htk n (taken_move hm (hR.named i p n hp hg.2.2.1))
  · exact hided
  · intro i p' n b hp' hx
    obtain ⟨p, hp, h1 | ⟨h1, _, _⟩⟩ := move_mem hm hp' hx
    · exact ided_mono hused (hr.idRead i p n b hp h1)
    · obtain ⟨h2, h3⟩ := hm.saw n b h1.symm
      rw [← h3] at h2
      exact hided n b h2
  · exact hwn
  · exact hbegun
  · exact hstored
  · intro n m hx
    have hlive : ¬ Dead w n → Taken w n → (∀ i p, w.procs i = some p → Named p.tr n → WroteAny p.tr) →
        (∃ b, w.disk.info n = some b ∧ RecordOf E b n m.upper) →
        Taken w' n ∧ (∀ i p, w'.procs i = some p → Named p.tr n → WroteAny p.tr) ∧ ∃ b, w'.disk.info n = some b ∧ RecordOf E b n m.upper := by
      rintro hnd ht hw ⟨b, hb, hrec⟩
      refine ⟨taken_move hm ht, ?_, ?_⟩
      · intro i p' hp' hn
        have hne : p'.tr ≠ [] := by intro h0; rw [h0] at hn; cases hn
        obtain ⟨p, hp, h1 | ⟨h1, hg, _⟩⟩ := move_mem hm hp' hn
        · obtain ⟨n1, b1, h2⟩ := hw i p hp h1
          exact ⟨n1, b1, wrote_move hm hp hp' hne h2⟩
        · subst h1
          obtain ⟨k, tl, rfl, htl⟩ := hg
          exact absurd ht (not_taken hp ⟨tl, htl⟩)
      · rcases hkeep n b hb hw with h1 | h1
        · exact ⟨b, h1, hrec⟩
        · exact absurd h1 hnd
    rcases eff_mnt hm.eff hx with h1 | ⟨h1, h2, _⟩
    · obtain ⟨ht, hw, hb⟩ := hr.mounted n m h1
      exact hlive (fun h => by rw [h.mnt] at h1; cases h1) ht hw hb
    · obtain ⟨i, p, _, hp, ⟨_, _, hn, ⟨b, hb, hrec⟩, _⟩, _⟩ := mover_of hm h1 ⟨by simp, by simp⟩
      have hnd : ¬ Dead w n := fun h => h2 h.mdir
      refine hlive hnd (hR.named i p n hp hn) ?_ ?_
      · intro j q hq hn'
        have := hR.namedUniq i j p q n hp hq hn hn'
        subst this
        rw [hp] at hq; cases hq
        exact ⟨n, b, _, hb⟩
      · rcases hr.stored i p n b hp hb with h3 | h3
        · exact ⟨b, h3, hrec⟩
        · exact absurd h3 hnd
  · -- no two records with one head
    have hone : ∀ n n' i i' u, n ≠ n' → w'.disk.info n = some (marshalInfo E.sh i) → w'.disk.info n' = some (marshalInfo E.sh i') → i.head = UID.hex u →
        i'.head = UID.hex u → w'.disk.info n = w.disk.info n := by
      intro n n' i i' u hne hi hi' hu hu'
      rcases eff_info hm.eff n with h2 | ⟨_, h2⟩ | ⟨_, h2⟩ | ⟨b', pr, old, x, h2, h3, h4, _, h5⟩
      · exact h2
      · rw [h2] at hi; cases hi
      · rw [h2] at hi
        have := C17_info_roundtrip E.sh i
        rw [← Option.some.inj hi, unmarshal_none] at this; cases this
      · exfalso
        obtain ⟨j, q, q', hq, hg, _⟩ := mover_of hm h2 ⟨by simp, by simp⟩
        obtain ⟨hn, hnw, ⟨v, hv1, _, i0, hi1, hi2, _⟩, _⟩ := hg
        have hold := hR.unwritten j q n old hq hn hnw h3
        subst hold
        have hbp : marshalInfo E.sh i = pr := by
          rw [h5] at hi
          simpa [overwrite] using hi.symm
        rw [← hbp, hi1] at h4
        have huv : u = v := by
          have := (record_eq (record_full h4)).2.1
          rw [hu, hi2] at this
          exact hex_of_sanitized this
        subst huv
        have hn' : w'.disk.info n' = w.disk.info n' := by
          rcases eff_info hm.eff n' with h6 | ⟨h6, _⟩ | ⟨h6, _⟩ | ⟨_, _, _, _, h6, _⟩
          · exact h6
          · rw [h2] at h6; cases h6
          · rw [h2] at h6; cases h6
          · rw [h2] at h6
            injection h6 with h7 _
            injection h7 with h8 _
            exact absurd h8 hne
        rw [hn'] at hi'
        rcases hR.record n' _ hi' with h6 | ⟨i2, u2, h6, _, h7, h8⟩
        · have := C17_info_roundtrip E.sh i'
          rw [h6, unmarshal_none] at this; cases this
        · have h9 := (record_eq (record_full h6)).2.1
          rw [hu', h7] at h9
          have := hex_of_sanitized h9
          subst this
          obtain ⟨b, hb⟩ := h8.maker j q hq hv1
          exact hnw ⟨n', b, hb⟩
    intro n n' i i' u hi hi'' hu hu'
    by_cases hne : n = n'
    · exact hne
    · have e1 := hone n n' i i' u hne hi hi'' hu hu'
      have e2 := hone n' n i' i u (fun h => hne h.symm) hi'' hi hu' hu
      rw [e1] at hi
      rw [e2] at hi''
      exact hr.heads n n' i i' u hi hi'' hu hu'

end

theorem tied_bare {E : Env} {w : World} (h : Bare w) (ht : Tracked w.disk) : Tied E w := by
  have hn : ∀ {i p}, w.procs i = some p → False := by
    intro i p hp
    rw [h.idle i] at hp; cases hp
  have hi : ∀ {n b}, w.disk.info n = some b → False := by
    intro n b hb
    rw [h.info n] at hb; cases hb
  have hm : ∀ {n m}, w.disk.mnt n = some m → False := by
    intro n m hb
    rw [h.mnt n] at hb; cases hb
  refine ⟨rec_clean ⟨⟨h.idle, fun _ _ hx => (hm hx).elim, fun _ _ _ _ hx => (hm hx).elim⟩, h.info⟩, fun _ _ _ hp => (hn hp).elim, ht, fun _ _ hb => (hi hb).elim,
    fun _ _ _ _ hp => (hn hp).elim, fun _ _ _ _ hp => (hn hp).elim, fun _ _ _ hp => (hn hp).elim, fun _ _ _ _ hp => (hn hp).elim,
    fun _ _ hx => (hm hx).elim, fun _ _ _ _ _ hb => (hi hb).elim⟩

theorem tied_next {E : Env} {f : Faults} (hf : f.rep = false) {w w' : World} (h : Tied E w) (hn : Sys.Next E f w w') : Tied E w' := by
  obtain ⟨e, hm⟩ := move_next hf h.recs.inv hn
  exact tied_move h (inv_next h.recs.inv hn) hm

theorem tied_steps {E : Env} {f : Faults} (hf : f.rep = false) {w w' : World} (h : Tied E w) (hs : Sys.Steps E f w w') : Tied E w' := by
  induction hs with
  | refl => exact h
  | step _ hn ih => exact tied_next hf ih hn

end Verif
