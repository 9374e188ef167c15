import Verif.Props.Json
/-!
# A saved text with something behind it

Two commands that save at the same time can leave a file that starts with one whole text and ends with the rest of another.
-/
set_option autoImplicit false
namespace Verif
namespace Json

/-- Whatever follows a written value, reading gives this value or an error. -/
theorem parseWith_more (sh : Bool) (d : Nat) (v : Val) (h : NoNum v) {t : Str} {x : Val} (hp : parseWith d (emit sh v ++ t) = some x) :
    parseWith d (emit sh v) = some x := by
  have full : pval (need v) (depth v) (emit sh v ++ t) = some (clean v, t) := pval_emit sh v (need v) (depth v) t h (Nat.le_refl _) (Nat.le_refl _)
  unfold parseWith at hp
  split at hp
  · rename_i y r hy
    split at hp
    · rename_i hw
      injection hp with hp
      subst hp
      have h1 := (mono _ (show fuelFor (emit sh v ++ t) ≤ max (fuelFor (emit sh v ++ t)) (need v) by omega)
        (show d ≤ max d (depth v) by omega)).1 _ _ hy
      have h2 := (mono _ (show need v ≤ max (fuelFor (emit sh v ++ t)) (need v) by omega)
        (show depth v ≤ max d (depth v) by omega)).1 _ _ full
      rw [h1] at h2
      cases h2
      have := (depth_le _).1 _ _ hy
      simp only [depth_clean] at this
      rw [parseWith_emit sh d v h, if_pos this]
    · cases hp
  · cases hp

end Json
open Json TS

theorem unmarshal_more (sh : Bool) (d : TreeDump) {t : Str} {x : TreeDump} (h : unmarshalDump (marshalDump sh d ++ t) = some x) :
    unmarshalDump (marshalDump sh d) = some x := by
  unfold unmarshalDump parse marshalDump at h ⊢
  obtain ⟨v, h1, h2⟩ := Option.bind_eq_some_iff.1 h
  rw [parseWith_more sh _ _ (noNum_dump d) h1]
  exact h2

theorem spaceLoad_ok (b : Str) : spaceLoad (.ok b) =
    match unmarshalDump b with
    | none => .err .unmarshal
    | some d => (TS.load d).mapErr .load := rfl

/-- The file starts with a whole saved tree, or is the start of one: what loads is that tree. -/
theorem load_around {s : TS} {sh : Bool} {full b : Str} (hs : SavesAs sh s full) (hb : b <+: full ∨ full <+: b) {s' : TS}
    (hl : spaceLoad (.ok b) = .ok s') : spaceLoad (.ok full) = .ok s' := by
  rcases hb with hb | ⟨t, rfl⟩
  · have := C18_never_misread hs hb hl
    rw [← this]; exact hl
  · obtain ⟨d, _, rfl⟩ := hs
    rw [spaceLoad_ok] at hl ⊢
    generalize hg : unmarshalDump (marshalDump sh d ++ t) = o at hl
    cases o with
    | none => exact absurd hl (by simp)
    | some x => rw [unmarshal_more sh d hg]; exact hl

/-- Such a file loads as that tree, or is refused. -/
theorem load_around_total {s : TS} {sh : Bool} {full b : Str} (hs : SavesAs sh s full) (hb : b <+: full ∨ full <+: b) :
    spaceLoad (.ok b) = spaceLoad (.ok full) ∨ ∃ e, spaceLoad (.ok b) = .err e := by
  rcases hb with ⟨q, hq⟩ | ⟨t, rfl⟩
  · by_cases hx : q = []
    · subst hx
      rw [List.append_nil] at hq
      rw [hq]; exact Or.inl rfl
    · exact Or.inr ⟨_, C18_torn_detected hs hq hx⟩
  · obtain ⟨d, _, rfl⟩ := hs
    rw [spaceLoad_ok, spaceLoad_ok]
    cases hg : unmarshalDump (marshalDump sh d ++ t) with
    | none => exact Or.inr ⟨_, rfl⟩
    | some x => rw [unmarshal_more sh d hg]; exact Or.inl rfl

theorem noNum_info (w : WsInfo) : NoNum (.obj (infoFieldsJ w)) := by
  apply noNum_fields
  intro e he
  simp only [List.mem_cons, List.not_mem_nil, or_false] at he
  rcases he with rfl | rfl | rfl | rfl | rfl | rfl <;> trivial

/-- The same for a record. -/
theorem unmarshalInfo_around {sh : Bool} {i j : WsInfo} {b : Str} (hb : b <+: marshalInfo sh i ∨ marshalInfo sh i <+: b)
    (h : unmarshalInfo b = some j) : unmarshalInfo (marshalInfo sh i) = some j := by
  rcases hb with ⟨q, hq⟩ | ⟨t, rfl⟩
  · by_cases hx : q = []
    · subst hx
      rw [List.append_nil] at hq
      rw [← hq]; exact h
    · exact absurd h (by rw [C18_info_torn sh i hq hx]; simp)
  · unfold unmarshalInfo parse marshalInfo at h ⊢
    obtain ⟨v, h1, h2⟩ := Option.bind_eq_some_iff.1 h
    rw [parseWith_more sh _ _ (noNum_info i) h1]
    exact h2

end Verif
