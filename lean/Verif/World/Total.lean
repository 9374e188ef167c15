import Verif.World.PoolRec
import Verif.World.Manager
/-!
# Every command has a run

`Draws p n`: the program `p` draws at most `n` random IDs. As long as so many IDs are left that were never drawn, the program
has a run in which nothing goes wrong by itself.
-/
set_option autoImplicit false
namespace Verif
open M TS Json

theorem exists_notMem : ∀ (n : Nat) (l : List Nat), l.length < n → ∃ m < n, m ∉ l := by
  intro n
  induction n with
  | zero => intro l h; omega
  | succ n ih =>
    intro l h
    by_cases hn : n ∈ l
    · have hl := List.length_erase_of_mem hn
      have hpos := List.length_pos_of_mem hn
      obtain ⟨m, hm, hm'⟩ := ih (l.erase n) (by omega)
      exact ⟨m, by omega, fun h' => hm' ((List.mem_erase_of_ne (by omega)).2 h')⟩
    · exact ⟨n, by omega, hn⟩

/-- Of any fewer than 2^128 IDs, one is missing. -/
theorem fresh_exists (l : List UID) (h : l.length < 2 ^ 128) : ∃ u, u ∉ l := by
  obtain ⟨m, hm, hm'⟩ := exists_notMem (2 ^ 128) (l.map fun u => leValue u.bytes) (by simpa using h)
  refine ⟨⟨UID.leBytes m 16, UID.leBytes_length m 16⟩, fun hu => hm' (List.mem_map.2 ⟨_, hu, ?_⟩)⟩
  exact leValue_leBytes 16 m (by simpa using hm)

section
variable {α β : Type}

/-- At most `n` random IDs are drawn. -/
inductive Draws : Prog α → Nat → Prop where
  | ret {a : α} {n : Nat} : Draws (.ret a) n
  | rand {k : UID → Prog α} {n : Nat} : (∀ x, Draws (k x) n) → Draws (.op .rand k) (n + 1)
  | op {c : Cmd} {k : c.Ans → Prog α} {n : Nat} : c ≠ .rand → (∀ x, Draws (k x) n) → Draws (.op c k) n

theorem draws_mono {p : Prog α} {n m : Nat} (h : Draws p n) (hm : n ≤ m) : Draws p m := by
  induction h generalizing m with
  | ret => exact .ret
  | rand _ ih =>
    obtain ⟨m', rfl⟩ : ∃ m', m = m' + 1 := ⟨m - 1, by omega⟩
    exact .rand fun x => ih x (by omega)
  | op hc _ ih => exact .op hc fun x => ih x hm

theorem draws_bind {p : Prog α} {g : α → Prog β} {n m : Nat} (h : Draws p n) (hg : ∀ a, Draws (g a) m) : Draws (p.bind g) (n + m) := by
  induction h with
  | ret => exact draws_mono (hg _) (by omega)
  | rand _ ih => rw [Nat.add_right_comm]; exact .rand ih
  | op hc _ ih => exact .op hc ih

theorem draws_seq {x : M α} {g : α → M β} {n m : Nat} (h : Draws (α := Res CErr α) x n) (hg : ∀ a, Draws (α := Res CErr β) (g a) m) :
    Draws (α := Res CErr β) (M.bind x g) (n + m) :=
  draws_bind h fun r => by
    cases r with
    | ok a => exact hg a
    | _ => exact .ret

theorem draws_fix {x : M α} {g : α → M β} {m : Nat} (h : Draws (α := Res CErr α) x 0) (hg : ∀ a, Draws (α := Res CErr β) (g a) m) :
    Draws (α := Res CErr β) (M.bind x g) m := by
  have := draws_seq h hg
  rwa [Nat.zero_add] at this

theorem draws_rand {g : UID → M β} {m : Nat} (hg : ∀ a, Draws (α := Res CErr β) (g a) m) : Draws (α := Res CErr β) (M.bind (ask .rand) g) (m + 1) :=
  .rand hg

theorem draws_ask {c : Cmd} (h : c ≠ .rand) : Draws (α := Res CErr c.Ans) (ask c) 0 := .op h fun _ => .ret

theorem draws_need (b : Bool) (e : CErr) : Draws (α := Res CErr Unit) (M.need b e) 0 := by
  unfold M.need; split <;> exact .ret

theorem draws_lift {ε : Type} (g : ε → CErr) (r : Res ε α) : Draws (α := Res CErr α) (lift g r) 0 := by
  cases r <;> exact .ret

theorem draws_pure (a : α) {n : Nat} : Draws (α := Res CErr α) (Pure.pure a : M α) n := .ret
theorem draws_fail (e : CErr) {n : Nat} : Draws (α := Res CErr α) (fail e : M α) n := .ret

variable {E : Env} {f : Faults}

theorem step_used {c : Cmd} {d d' : Disk} {x : c.Ans} (h : Step E f c d x d') : d'.used.length ≤ d.used.length + 1 ∧ (c ≠ .rand → d'.used = d.used) := by
  rcases eff_used (step_effect h) with e | ⟨u, e, e'⟩
  · rw [e]; exact ⟨by omega, fun _ => rfl⟩
  · rw [e']; exact ⟨by simp, fun hc => absurd (congrArg Sigma.fst e) hc⟩

/-- A program that draws at most `n` IDs has a run if that many are left. -/
theorem exec_total {p : Prog α} {n : Nat} (h : Draws p n) (d : Disk) (hd : d.used.length + n < 2 ^ 128) : ∃ a d', Exec E f p d a d' := by
  induction h generalizing d with
  | ret => exact ⟨_, _, .ret _ _⟩
  | rand _ ih =>
    obtain ⟨u, hu⟩ := fresh_exists d.used (by omega)
    obtain ⟨a, d', he⟩ := ih u { d with used := u :: d.used } (by simp; omega)
    exact ⟨a, d', .op (c := .rand) (x := u) ⟨Or.inl hu, rfl⟩ he⟩
  | @op c k n hc _ ih =>
    obtain ⟨x, d1, hs⟩ := step_total E f c d (by obtain ⟨u, hu⟩ := fresh_exists d.used (by omega); exact ⟨u, Or.inl hu⟩)
    obtain ⟨a, d', he⟩ := ih x d1 (by rw [(step_used hs).2 hc]; exact hd)
    exact ⟨a, d', .op hs he⟩

/-- A program that draws at most `n` IDs has drawn at most `n` IDs. -/
theorem exec_used {p : Prog α} {n : Nat} (h : Draws p n) {d d' : Disk} {a : α} (he : Exec E f p d a d') : d'.used.length ≤ d.used.length + n := by
  induction h generalizing d with
  | ret => cases he; omega
  | rand _ ih =>
    cases he with
    | op hs he => have := ih _ he; have := (step_used hs).1; omega
  | op hc _ ih =>
    cases he with
    | op hs he => have := ih _ he; rw [(step_used hs).2 hc] at this; exact this

/-- Also when it is killed. -/
theorem stops_used {p : Prog α} {n : Nat} (h : Draws p n) {d d' : Disk} (he : Stops E f p d d') : d'.used.length ≤ d.used.length + n := by
  induction h generalizing d with
  | ret => cases he; omega
  | rand _ ih =>
    cases he with
    | here => omega
    | op hs he => have := ih _ he; have := (step_used hs).1; omega
  | op hc _ ih =>
    cases he with
    | here => omega
    | op hs he => have := ih _ he; rw [(step_used hs).2 hc] at this; exact this

end

macro "draw0" : tactic => `(tactic| repeat' (first
  | exact .ret
  | exact draws_ask (by intro h; cases h)
  | exact draws_need _ _
  | exact draws_lift _ _
  | assumption
  | (refine draws_fix ?_ fun x => ?_)
  | split))

theorem layerCreate_draws : Draws (α := Res CErr UID) layerCreate 1 := by
  unfold layerCreate
  refine draws_rand fun u => ?_
  draw0

theorem spaceInitP_draws : Draws (α := Res CErr TS) spaceInitP 1 :=
  draws_seq (m := 0) layerCreate_draws fun _ => draws_lift _ _

theorem spaceSave_draws (n : Str) (s : TS) : Draws (α := Res CErr Unit) (spaceSave n s) 0 := by
  unfold spaceSave; draw0

theorem createLayer_draws (s : TS) (u : UID) : Draws (α := Res CErr (TS × Ref)) (createLayer s u) 1 := by
  unfold createLayer
  split
  · exact .ret
  · exact draws_seq (m := 0) layerCreate_draws fun _ => by draw0

theorem layerChain_draws (heap : List NodeObj) : ∀ (n : Nat) (r : Option Ref), Draws (α := Res CErr (List UID)) (layerChain heap n r) 0
  | _, none => by unfold layerChain; exact .ret
  | 0, some _ => by unfold layerChain; exact .ret
  | n + 1, some r => by
    have ih := layerChain_draws heap n
    unfold layerChain
    split
    · exact .ret
    · refine draws_fix (draws_ask (by intro h; cases h)) fun x => draws_fix (draws_need _ _) fun _ => draws_fix (ih _) fun _ => .ret

theorem spaceCreateMount_draws (s : TS) (u m : UID) : Draws (α := Res CErr (TS × MountObj × Ref)) (spaceCreateMount s u m) 1 := by
  unfold spaceCreateMount
  refine draws_seq (m := 0) (createLayer_draws s u) fun a => draws_fix (layerChain_draws _ _ _) fun l => ?_
  split <;> exact .ret

theorem createMount_draws (s : TS) (u : UID) : Draws (α := Res CErr (TS × MountObj × Ref)) (createMount s u) 2 :=
  draws_rand fun _ => draws_fix (draws_ask (by intro h; cases h)) fun _ => draws_fix (draws_need _ _) fun _ => spaceCreateMount_draws _ _ _

theorem createSpace_draws : Draws (α := Res CErr (UID × TS)) createSpace 2 :=
  draws_rand fun _ => draws_fix (draws_ask (by intro h; cases h)) fun _ => draws_fix (draws_need _ _) fun _ =>
    draws_seq (m := 0) spaceInitP_draws fun _ => .ret

theorem saveInfo_draws (E : Env) (w : OpenWs) : Draws (α := Res CErr Unit) (saveInfo E w) 0 := by
  unfold saveInfo; draw0

theorem saveAll_draws (E : Env) (w : OpenWs) : Draws (α := Res CErr OpenWs) (saveAll E w) 0 :=
  draws_fix (spaceSave_draws _ _) fun _ => draws_fix (saveInfo_draws E w) fun _ => .ret

theorem createWorkspace_draws (E : Env) (p b : Str) : Draws (α := Res CErr OpenWs) (createWorkspace E p b) 5 := by
  refine draws_seq (m := 3) createSpace_draws fun ⟨i, s⟩ => ?_
  dsimp only
  split
  · exact .ret
  · exact draws_seq (m := 1) (createMount_draws _ _) fun _ => draws_rand fun _ => draws_fix (draws_lift _ _) fun _ => saveAll_draws E _

theorem loadInfo_draws (m : UID) : Draws (α := Res CErr WsInfo) (loadInfo m) 0 := by
  unfold loadInfo; draw0

theorem linkOf_draws (p : Str) : Draws (α := Res CErr (Option Str)) (linkOf p) 0 := by
  unfold linkOf; draw0

theorem getWorkspace_draws (E : Env) (cwd p : Str) : Draws (α := Res CErr OpenWs) (getWorkspace E cwd p) 0 := by
  unfold getWorkspace
  refine draws_fix (linkOf_draws _) fun _ => draws_fix (draws_lift _ _) fun m => draws_fix (loadInfo_draws m) fun _ => ?_
  draw0

theorem moveBranch_draws (s : TS) (b : BranchInfo) (r : Ref) : Draws (α := Res CErr TS) (moveBranch s b r) 0 := by
  unfold moveBranch; draw0

theorem commitP_draws (E : Env) (w : OpenWs) (ci : CommitInfo) : Draws (α := Res CErr OpenWs) (commitP E w ci) 2 := by
  unfold commitP
  split
  · exact .ret
  · split
    · exact .ret
    · exact draws_seq (m := 0) (createMount_draws _ _) fun _ => draws_fix (moveBranch_draws _ _ _) fun _ => saveAll_draws E _

theorem checkoutP_draws (E : Env) (w : OpenWs) (key : Str) : Draws (α := Res CErr OpenWs) (checkoutP E w key) 2 := by
  unfold checkoutP
  refine draws_fix (draws_lift _ _) fun a => ?_
  split
  · exact .ret
  · split
    · exact .ret
    · exact draws_seq (m := 0) (createMount_draws _ _) fun _ => saveAll_draws E _

theorem cloneP_draws (E : Env) (w : OpenWs) (t : Str) : Draws (α := Res CErr OpenWs) (cloneP E w t) 3 :=
  draws_fix (draws_lift _ _) fun _ => draws_seq (m := 1) (createMount_draws _ _) fun _ => draws_rand fun _ => saveAll_draws E _

theorem mountP_draws (m : MountObj) : Draws (α := Res CErr Unit) (mountP m) 0 := by
  unfold mountP; draw0

theorem expand_draws (E : Env) (w : OpenWs) : Draws (α := Res CErr Unit) (expand E w) 0 := by
  unfold expand
  refine draws_fix (mountP_draws _) fun _ => ?_
  draw0

theorem removeMount_draws (m : MountObj) : Draws (α := Res CErr Unit) (removeMount m) 0 := by
  unfold removeMount; draw0

theorem initCmd_draws (E : Env) (p b : Str) : Draws (α := Res CErr OpenWs) (initCmd E p b) 5 := by
  have h : Draws (α := Res CErr OpenWs) (M.bind (createWorkspace E p b) fun w => M.bind (expand E w) fun _ => M.pure w) 5 :=
    draws_seq (m := 0) (createWorkspace_draws E p b) fun w => draws_fix (expand_draws E w) fun _ => .ret
  unfold initCmd
  refine draws_fix (draws_ask (by intro h; cases h)) fun x => ?_
  split
  · refine draws_fix (draws_ask (by intro h; cases h)) fun _ => draws_fix (draws_need _ _) fun _ => h
  · exact h

theorem cloneCmd_draws (E : Env) (cwd s t : Str) : Draws (α := Res CErr OpenWs) (cloneCmd E cwd s t) 3 :=
  draws_fix (getWorkspace_draws E cwd s) fun _ => draws_seq (m := 0) (cloneP_draws E _ t) fun _ => draws_fix (expand_draws E _) fun _ => .ret

theorem commitCmd_draws (E : Env) (cwd : Str) (ci : CommitInfo) : Draws (α := Res CErr (OpenWs × OpenWs)) (commitCmd E cwd ci) 2 :=
  draws_fix (getWorkspace_draws E cwd _) fun _ => draws_seq (m := 0) (commitP_draws E _ ci) fun _ => draws_fix (expand_draws E _) fun _ =>
    draws_fix (removeMount_draws _) fun _ => .ret

theorem checkoutCmd_draws (E : Env) (cwd key : Str) : Draws (α := Res CErr (OpenWs × OpenWs)) (checkoutCmd E cwd key) 2 :=
  draws_fix (getWorkspace_draws E cwd _) fun _ => draws_seq (m := 0) (checkoutP_draws E _ key) fun _ => draws_fix (expand_draws E _) fun _ =>
    draws_fix (removeMount_draws _) fun _ => .ret

theorem editAll_draws (dir : Str) (w : Ws) : ∀ (es : List Edit) (s : TS), Draws (α := Res CErr TS) (editAll dir w es s) 0
  | [], _ => .ret
  | _ :: es, _ => draws_fix (draws_lift _ _) fun _ => draws_fix (spaceSave_draws _ _) fun _ => editAll_draws dir w es _

theorem editCmd_draws (E : Env) (cwd : Str) (es : List Edit) : Draws (α := Res CErr TS) (editCmd E cwd es) 0 :=
  draws_fix (getWorkspace_draws E cwd _) fun _ => editAll_draws _ _ es _

end Verif
