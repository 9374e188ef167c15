import Verif.World.History
/-!
# More faults allow more

Whatever can happen while little goes wrong can also happen while more may go wrong.
-/
set_option autoImplicit false
namespace Verif
open M TS Json

/-- Everything that `f` allows to go wrong may go wrong under `f'`. -/
structure Faults.Le (f f' : Faults) : Prop where
  io : f.io = true → f'.io = true
  busy : f.busy = true → f'.busy = true
  rep : f.rep = true → f'.rep = true

section
variable {E : Env} {f f' : Faults}

theorem does_mono (hf : f.Le f') {P : Prop} {d1 d d' : Disk} {a : Bool} (h : Does f P d1 d a d') : Does f' P d1 d a d' := by
  unfold Does at *
  have := hf.io
  grind

theorem tests_mono (hf : f.Le f') {P : Prop} {d d' : Disk} {a : Bool} (h : Tests f P d a d') : Tests f' P d a d' := by
  unfold Tests at *
  have := hf.io
  grind

theorem step_mono (hf : f.Le f') {c : Cmd} {d d' : Disk} {a : c.Ans} (h : Step E f c d a d') : Step E f' c d a d' := by
  have h1 := hf.io
  have h2 := hf.busy
  have h3 := hf.rep
  cases c with
  | mkdirSpace n => exact does_mono hf h
  | mkdirLayer n => exact does_mono hf h
  | isDirDiff n => exact tests_mono hf h
  | mkdirDiff n => exact does_mono hf h
  | isDirLayer n => exact tests_mono hf h
  | mkdirMount n => exact does_mono hf h
  | isDirMerged n => exact tests_mono hf h
  | isDirWork n => exact tests_mono hf h
  | mountOverlay n u ls => exact does_mono hf h
  | sys s => exact does_mono hf h
  | truncInfo n => exact does_mono hf h
  | truncTree n => exact does_mono hf h
  | remove p => exact h.imp (fun h => ⟨h.1, does_mono hf h.2⟩) id
  | symlink t p => exact h.imp (fun h => ⟨h.1, does_mono hf h.2⟩) id
  | lchown p => exact h.imp (fun h => ⟨h.1, does_mono hf h.2⟩) id
  | chownMerged n =>
    simp only [Step] at h ⊢
    split
    · rename_i hm; rw [hm] at h; exact does_mono hf h
    · rename_i hm
      rw [hm] at h
      simp only at h
      split at h
      · exact does_mono hf h
      · exact h
  | removeAllMount n =>
    simp only [Step] at h ⊢
    split
    · rename_i hm; rw [hm] at h; simp only at h; grind
    · rename_i hm
      rw [hm] at h
      obtain ⟨g1, c', w, g2, g3⟩ := h
      exact ⟨g1, c', w, fun x p => (g2 x p).imp id fun ⟨a, b⟩ => ⟨h1 a, b⟩, g3⟩
  | writeInfo n b => simp only [Step] at h ⊢; split <;> rename_i hm <;> rw [hm] at h <;> grind
  | writeTree n b =>
    simp only [Step] at h ⊢
    split at h
    · grind
    · exact h
  | readInfo n => simp only [Step] at h ⊢; cases a <;> grind
  | readTree n => simp only [Step] at h ⊢; cases a <;> grind
  | _ => simp only [Step] at h ⊢; grind

theorem exec_mono (hf : f.Le f') {α : Type} {p : Prog α} {d d' : Disk} {a : α} (h : Exec E f p d a d') : Exec E f' p d a d' := by
  induction h with
  | ret => exact .ret _ _
  | op h1 _ ih => exact .op (step_mono hf h1) ih

theorem happens_mono (hf : f.Le f') {act : Act} {d d' : Disk} (h : Happens E f act d d') : Happens E f' act d d' := by
  cases h with
  | init h => exact .init (exec_mono hf h)
  | clone h => exact .clone (exec_mono hf h)
  | commit h => exact .commit (exec_mono hf h)
  | checkout h => exact .checkout (exec_mono hf h)
  | edit h => exact .edit (exec_mono hf h)
  | write h => exact .write h
  | stray h1 h2 h3 => exact .stray h1 h2 h3
  | files => exact .files
  | reboot => exact .reboot

theorem past_mono (hf : f.Le f') {d d' : Disk} (h : Past E f d d') : Past E f' d d' := by
  induction h with
  | refl => exact .refl
  | step _ h1 h2 ih => exact .step ih h1 (happens_mono hf h2)

theorem none_le (f : Faults) : Faults.none.Le f := ⟨nofun, nofun, nofun⟩

/-- The faults of both. -/
def Faults.join (f f' : Faults) : Faults := ⟨f.io || f'.io, f.busy || f'.busy, f.rep || f'.rep⟩

theorem le_join_left (f f' : Faults) : f.Le (f.join f') := ⟨fun h => by simp [Faults.join, h], fun h => by simp [Faults.join, h], fun h => by simp [Faults.join, h]⟩
theorem le_join_right (f f' : Faults) : f'.Le (f.join f') := ⟨fun h => by simp [Faults.join, h], fun h => by simp [Faults.join, h], fun h => by simp [Faults.join, h]⟩

end
end Verif
