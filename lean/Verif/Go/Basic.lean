/-!
# Go basics: strings, outcomes, maps

Shared vocabulary for the model of `/repo`. Nothing here is specific to stackcrisp.
-/
set_option autoImplicit false
namespace Verif

/-- A Go `string` (and a non-nil `[]byte`): an arbitrary sequence of bytes, not necessarily UTF-8. -/
abbrev Str := List UInt8

/-- The bytes of an ASCII literal of the Go source. -/
def lit (s : String) : Str := s.toList.map fun c => UInt8.ofNat c.toNat

/-- How a Go call can end. `panic` is a run-time panic, `diverge` a loop that does not end.
Error values are kept as an enumeration of the places that build them. -/
inductive Res (ε α : Type) where
  | ok (a : α)
  | err (e : ε)
  | panic
  | diverge
  deriving DecidableEq, Repr

namespace Res
/-- Sequencing: `if err != nil { return err }`. -/
@[simp] def bind {ε α β : Type} (x : Res ε α) (f : α → Res ε β) : Res ε β :=
  match x with
  | ok a => f a
  | err e => err e
  | panic => panic
  | diverge => diverge

/-- Whether the call returned normally with a nil error. -/
@[simp] def isOk {ε α : Type} : Res ε α → Bool
  | ok _ => true
  | _ => false

/-- Whether the call returned a non-nil error. -/
@[simp] def isErr {ε α : Type} : Res ε α → Bool
  | err _ => true
  | _ => false

/-- The value of a successful call. -/
@[simp] def toOption {ε α : Type} : Res ε α → Option α
  | ok a => some a
  | _ => none
end Res

/-! ## Association lists -/

namespace AL
variable {α : Type}

/-- Look up a key. -/
def get (l : List (Str × α)) (k : Str) : Option α :=
  match l with
  | [] => none
  | (k', v) :: l => if k' = k then some v else get l k

/-- Assign a key: replace the entry if there is one, else add it. -/
def put (l : List (Str × α)) (k : Str) (v : α) : List (Str × α) :=
  match l with
  | [] => [(k, v)]
  | (k', v') :: l => if k' = k then (k, v) :: l else (k', v') :: put l k v

/-- Delete a key. -/
def del (l : List (Str × α)) (k : Str) : List (Str × α) :=
  l.filter fun e => e.1 ≠ k

/-- The keys. -/
def keys (l : List (Str × α)) : List Str := l.map Prod.fst

@[simp] theorem get_nil (k : Str) : get ([] : List (Str × α)) k = none := rfl

theorem get_cons (k' : Str) (v : α) (l : List (Str × α)) (k : Str) :
    get ((k', v) :: l) k = if k' = k then some v else get l k := rfl

theorem get_put (l : List (Str × α)) (k k' : Str) (v : α) :
    get (put l k v) k' = if k = k' then some v else get l k' := by
  induction l with
  | nil => simp [put, get]
  | cons e l ih =>
    obtain ⟨k1, v1⟩ := e
    unfold put
    by_cases h : k1 = k
    · subst h; simp only [if_true, get]; split <;> simp_all
    · simp only [h, if_false, get, ih]
      by_cases h2 : k1 = k'
      · have h3 : ¬ (k = k') := fun h3 => h (by rw [h2, h3])
        simp [h2, h3]
      · simp [h2]

@[simp] theorem get_put_self (l : List (Str × α)) (k : Str) (v : α) : get (put l k v) k = some v := by
  simp [get_put]

theorem get_del (l : List (Str × α)) (k k' : Str) :
    get (del l k) k' = if k = k' then none else get l k' := by
  induction l with
  | nil => simp [del]
  | cons e l ih =>
    obtain ⟨k1, v1⟩ := e
    simp only [del] at ih ⊢
    by_cases h : k1 = k
    · simp only [h, List.filter_cons, ne_eq, not_true, decide_false, Bool.false_eq_true, if_false, ih, get]
      split <;> simp_all
    · simp only [List.filter_cons, ne_eq, h, not_false_eq_true, decide_true, if_true, get, ih]
      by_cases h2 : k1 = k'
      · have h3 : ¬ (k = k') := fun h3 => h (by rw [h2, h3])
        simp [h2, h3]
      · simp [h2]

theorem mem_of_get {l : List (Str × α)} {k : Str} {v : α} (h : get l k = some v) : (k, v) ∈ l := by
  induction l with
  | nil => simp at h
  | cons e l ih =>
    obtain ⟨k1, v1⟩ := e
    rw [get_cons] at h
    split at h
    · rename_i hk; subst hk; simp_all
    · exact List.mem_cons_of_mem _ (ih h)

theorem get_of_mem {l : List (Str × α)} {k : Str} {v : α} (hn : (keys l).Nodup) (h : (k, v) ∈ l) :
    get l k = some v := by
  induction l with
  | nil => simp at h
  | cons e l ih =>
    obtain ⟨k1, v1⟩ := e
    simp only [keys, List.map_cons, List.nodup_cons] at hn
    rw [get_cons]
    rcases List.mem_cons.1 h with h | h
    · cases h; simp
    · have : k1 ≠ k := by
        rintro rfl
        exact hn.1 (List.mem_map.2 ⟨_, h, rfl⟩)
      simp [this, ih hn.2 h]

theorem mem_iff_get {l : List (Str × α)} (hn : (keys l).Nodup) {k : Str} {v : α} :
    (k, v) ∈ l ↔ get l k = some v := ⟨get_of_mem hn, mem_of_get⟩

theorem get_eq_none_iff {l : List (Str × α)} {k : Str} : get l k = none ↔ k ∉ keys l := by
  induction l with
  | nil => simp [keys]
  | cons e l ih =>
    obtain ⟨k1, v1⟩ := e
    rw [get_cons]
    simp only [keys, List.map_cons, List.mem_cons, not_or] at ih ⊢
    by_cases h : k1 = k
    · simp [h]
    · simp [h, ih, Ne.symm h]

theorem mem_keys_iff {l : List (Str × α)} {k : Str} : k ∈ keys l ↔ ∃ v, get l k = some v := by
  rw [← Option.isSome_iff_exists]
  have h := get_eq_none_iff (l := l) (k := k)
  cases hg : get l k <;> simp_all

theorem mem_keys_put {l : List (Str × α)} {k k' : Str} {v : α} :
    k' ∈ keys (put l k v) ↔ k' = k ∨ k' ∈ keys l := by
  rw [mem_keys_iff, mem_keys_iff]
  by_cases h : k = k'
  · subst h; simp
  · simp [get_put, h, Ne.symm h]

theorem nodup_put {l : List (Str × α)} (hn : (keys l).Nodup) (k : Str) (v : α) :
    (keys (put l k v)).Nodup := by
  induction l with
  | nil => simp [put, keys]
  | cons e l ih =>
    obtain ⟨k1, v1⟩ := e
    simp only [keys, List.map_cons, List.nodup_cons] at hn
    unfold put
    by_cases h : k1 = k
    · subst h; simpa [keys] using hn
    · simp only [h, if_false, keys, List.map_cons, List.nodup_cons]
      refine ⟨?_, ih hn.2⟩
      intro hm
      rcases mem_keys_put.1 hm with h2 | h2
      · exact h h2
      · exact hn.1 h2

theorem nodup_del {l : List (Str × α)} (hn : (keys l).Nodup) (k : Str) : (keys (del l k)).Nodup := by
  unfold keys del
  exact List.Nodup.sublist (List.Sublist.map _ List.filter_sublist) hn

theorem get_perm {l l' : List (Str × α)} (hp : l.Perm l') (hn : (keys l).Nodup) (k : Str) :
    get l k = get l' k := by
  have hn' : (keys l').Nodup := (List.Perm.nodup_iff (hp.map Prod.fst)).1 hn
  cases h : get l k with
  | some v => exact (get_of_mem hn' (hp.mem_iff.1 (mem_of_get h))).symm
  | none =>
    symm
    rw [get_eq_none_iff] at h ⊢
    exact fun hm => h ((hp.map Prod.fst).mem_iff.2 hm)

theorem get_append (l l' : List (Str × α)) (k : Str) :
    get (l ++ l') k = (get l k).or (get l' k) := by
  induction l with
  | nil => simp
  | cons e l ih =>
    obtain ⟨k1, v1⟩ := e
    simp only [List.cons_append, get_cons, ih]
    split <;> simp

theorem length_put {l : List (Str × α)} {k : Str} {v : α} (h : get l k = none) :
    (put l k v).length = l.length + 1 := by
  induction l with
  | nil => simp [put]
  | cons e l ih =>
    obtain ⟨k1, v1⟩ := e
    rw [get_cons] at h
    split at h
    · simp at h
    · rename_i hk
      simp [put, hk, ih h]

theorem put_new {l : List (Str × α)} {k : Str} {v : α} (h : get l k = none) :
    put l k v = l ++ [(k, v)] := by
  induction l with
  | nil => simp [put]
  | cons e l ih =>
    obtain ⟨k1, v1⟩ := e
    rw [get_cons] at h
    split at h
    · simp at h
    · rename_i hk
      simp [put, hk, ih h]

theorem get_map {β : Type} (f : α → β) (l : List (Str × α)) (k : Str) :
    get (l.map fun e => (e.1, f e.2)) k = (get l k).map f := by
  induction l with
  | nil => simp
  | cons e l ih =>
    obtain ⟨k1, v1⟩ := e
    simp only [List.map_cons, get_cons, ih]
    split <;> simp

end AL

/-! ## Go maps with string keys -/

/-- A Go `map[string]α`: `none` is the nil map, `some l` a map made with `make`.
The list order stands for the (unspecified) iteration order; no theorem may depend on it. -/
abbrev GoMap (α : Type) := Option (List (Str × α))

namespace GoMap
variable {α : Type}

/-- The entries that `range m` visits. -/
def entries (m : GoMap α) : List (Str × α) := m.getD []

/-- `v, ok := m[k]`: reading a nil map finds nothing. -/
def get (m : GoMap α) (k : Str) : Option α := AL.get (entries m) k

/-- `if m == nil { m = make(...) }`. -/
def ensure (m : GoMap α) : GoMap α := some (entries m)

/-- `m[k] = v`: `none` is the panic on assignment to a nil map. -/
def assign (m : GoMap α) (k : Str) (v : α) : Option (GoMap α) :=
  match m with
  | none => none
  | some l => some (some (AL.put l k v))

/-- `delete(m, k)`: a no-op on a nil map. -/
def delete (m : GoMap α) (k : Str) : GoMap α :=
  match m with
  | none => none
  | some l => some (AL.del l k)

/-- `len(m)`. -/
def size (m : GoMap α) : Nat := (entries m).length

/-- Keys are distinct. -/
def Nodup (m : GoMap α) : Prop := (AL.keys (entries m)).Nodup

@[simp] theorem entries_none : entries (none : GoMap α) = [] := rfl
@[simp] theorem entries_some (l : List (Str × α)) : entries (some l : GoMap α) = l := rfl
@[simp] theorem entries_ensure (m : GoMap α) : entries (ensure m) = entries m := rfl
@[simp] theorem get_ensure (m : GoMap α) (k : Str) : get (ensure m) k = get m k := rfl
@[simp] theorem get_none (k : Str) : get (none : GoMap α) k = none := rfl
theorem assign_ensure (m : GoMap α) (k : Str) (v : α) :
    assign (ensure m) k v = some (some (AL.put (entries m) k v)) := rfl
theorem get_some (l : List (Str × α)) (k : Str) : get (some l : GoMap α) k = AL.get l k := rfl
theorem get_delete (m : GoMap α) (k k' : Str) :
    get (delete m k) k' = if k = k' then none else get m k' := by
  cases m with
  | none => simp [delete]
  | some l => simp only [delete, get_some, AL.get_del]
theorem nodup_delete {m : GoMap α} (h : Nodup m) (k : Str) : Nodup (delete m k) := by
  cases m with
  | none => exact h
  | some l => exact AL.nodup_del h k
theorem nodup_put {m : GoMap α} (h : Nodup m) (k : Str) (v : α) :
    Nodup (some (AL.put (entries m) k v)) := AL.nodup_put h k v
@[simp] theorem nodup_none : Nodup (none : GoMap α) := by simp [Nodup, AL.keys]
theorem mem_of_get {m : GoMap α} {k : Str} {v : α} (h : get m k = some v) : (k, v) ∈ entries m :=
  AL.mem_of_get h
theorem mem_iff_get {m : GoMap α} (hn : Nodup m) {k : Str} {v : α} :
    (k, v) ∈ entries m ↔ get m k = some v := AL.mem_iff_get hn
end GoMap

end Verif
