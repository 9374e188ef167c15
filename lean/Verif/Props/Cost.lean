import Verif.Props.Commands
import Verif.World.Total
import Verif.World.Pool
/-!
# What a command costs (C93)

Counted are the directories in the data directory: layers, mount directories, spaces. The bounds hold for all executions of any number of commands at the same time, with
failing calls and commands that are killed.
-/
set_option autoImplicit false
namespace Verif
open M TS Json

/-! ## What is claimed -/

/-- The layers a command may add. -/
def Command.layers : Command → Nat
  | .init _ _ => 2
  | .clone _ _ _ => 1
  | .commit _ _ => 1
  | .checkout _ _ => 1
  | .edit _ _ => 0
  | .look _ => 0

/-- The mount directories a command may add. -/
def Command.mounts : Command → Nat
  | .init _ _ => 1
  | .clone _ _ _ => 1
  | .commit _ _ => 1
  | .checkout _ _ => 1
  | .edit _ _ => 0
  | .look _ => 0

/-- The spaces a command may add. -/
def Command.spaces : Command → Nat
  | .init _ _ => 1
  | _ => 0

/-- An execution and the commands that were started in it, the last one first. -/
inductive Sys.Logged (E : Env) (f : Faults) : World → List Command → World → Prop where
  | refl (w : World) : Sys.Logged E f w [] w
  | start {w w1 : World} {cs : List Command} (i : Nat) (c : Command) : Sys.Logged E f w cs w1 → w1.procs i = none →
      Sys.Logged E f w (c :: cs) ⟨w1.disk, upd w1.procs i (some ⟨w1.disk, [], c.prog E⟩)⟩
  | next {w w1 w2 : World} {cs : List Command} : Sys.Logged E f w cs w1 → Sys.Next E f w1 w2 → (∀ i, w1.procs i = none → w2.procs i = none) → Sys.Logged E f w cs w2

/-- Every execution has such a list. -/
theorem logged_of_steps {E : Env} {f : Faults} {w w' : World} (h : Sys.Steps E f w w') : ∃ cs, Sys.Logged E f w cs w' := by
  induction h with
  | refl => exact ⟨[], .refl _⟩
  | @step w1 w2 _ hn ih =>
    obtain ⟨cs, ih⟩ := ih
    cases hn with
    | start i c hi => exact ⟨c :: cs, .start i c ih hi⟩
    | @run i p c k x d' o hp hc hs =>
      refine ⟨cs, .next ih (.run hp hc hs) fun j hj => ?_⟩
      have e : j ≠ i := by rintro rfl; rw [hp] at hj; cases hj
      simp only [upd_ne _ _ e]; exact hj
    | kill i =>
      refine ⟨cs, .next ih (.kill i) fun j hj => ?_⟩
      by_cases e : j = i
      · subst e; exact upd_self _ _ _
      · simp only [upd_ne _ _ e]; exact hj
    | outside ho => exact ⟨cs, .next ih (.outside ho) fun _ h => h⟩

/-- A command that runs alone. -/
theorem logged_exec {E : Env} {f : Faults} {w0 : World} {cs : List Command} {q : Prog (Res CErr Out)} {d d' : Disk} {r : Res CErr Out} (h : Exec E f q d r d') :
    ∀ {procs : Nat → Option Proc} {i : Nat} {st : Disk} {tr : Trace}, procs i = some ⟨st, tr, q⟩ → Sys.Logged E f w0 cs ⟨d, procs⟩ →
      ∃ procs', Sys.Logged E f w0 cs ⟨d', procs'⟩ ∧ (∃ tr', procs' i = some ⟨st, tr', .ret r⟩) ∧ ∀ j, j ≠ i → procs' j = procs j := by
  induction h with
  | ret a d => exact fun hi hl => ⟨_, hl, ⟨_, hi⟩, fun _ _ => rfl⟩
  | @op c k d d2 d3 y a hs _ ih =>
    intro procs i st tr hi hl
    have hn := Sys.Next.run (E := E) (f := f) (w := ⟨d, procs⟩) (i := i) (o := E.owner) hi rfl hs
    obtain ⟨procs', h1, h2, h3⟩ := ih (upd_self _ _ _) (.next hl hn fun j hj => by
      have e : j ≠ i := by rintro rfl; simp only [hi] at hj; cases hj
      simp only [upd_ne _ _ e]; exact hj)
    exact ⟨procs', h1, h2, fun j hj => by rw [h3 j hj, upd_ne _ _ hj]⟩

/-! ## Counting calls -/

section
variable {α β : Type}

/-- The calls of every run weigh at most `n`. -/
inductive Weighs (wt : Cmd → Nat) : Prog α → Nat → Prop where
  | ret {a : α} {n : Nat} : Weighs wt (.ret a) n
  | op {c : Cmd} {k : c.Ans → Prog α} {n : Nat} : (∀ x, Weighs wt (k x) n) → Weighs wt (.op c k) (n + wt c)

variable {wt : Cmd → Nat}

theorem weighs_mono {p : Prog α} {n m : Nat} (h : Weighs wt p n) (hm : n ≤ m) : Weighs wt p m := by
  induction h generalizing m with
  | ret => exact .ret
  | @op c k n _ ih =>
    obtain ⟨m', rfl⟩ : ∃ m', m = m' + wt c := ⟨m - wt c, by omega⟩
    exact .op fun x => ih x (by omega)

theorem weighs_bind {p : Prog α} {g : α → Prog β} {n m : Nat} (h : Weighs wt p n) (hg : ∀ a, Weighs wt (g a) m) : Weighs wt (p.bind g) (n + m) := by
  induction h with
  | ret => exact weighs_mono (hg _) (by omega)
  | op _ ih => rw [Nat.add_right_comm]; exact .op ih

theorem weighs_seq {x : M α} {g : α → M β} {n m : Nat} (h : Weighs wt (α := Res CErr α) x n) (hg : ∀ a, Weighs wt (α := Res CErr β) (g a) m) :
    Weighs wt (α := Res CErr β) (M.bind x g) (n + m) :=
  weighs_bind h fun r => by
    cases r with
    | ok a => exact hg a
    | _ => exact .ret

theorem weighs_fix {x : M α} {g : α → M β} {m : Nat} (h : Weighs wt (α := Res CErr α) x 0) (hg : ∀ a, Weighs wt (α := Res CErr β) (g a) m) :
    Weighs wt (α := Res CErr β) (M.bind x g) m := by
  have := weighs_seq h hg
  rwa [Nat.zero_add] at this

theorem weighs_ask {c : Cmd} : Weighs wt (α := Res CErr c.Ans) (ask c) (wt c) := by
  have h : Weighs wt (α := Res CErr c.Ans) (ask c) (0 + wt c) := .op fun _ => .ret
  rwa [Nat.zero_add] at h

theorem weighs_need (b : Bool) (e : CErr) : Weighs wt (α := Res CErr Unit) (M.need b e) 0 := by
  unfold M.need; split <;> exact .ret

theorem weighs_lift {ε : Type} (g : ε → CErr) (r : Res ε α) : Weighs wt (α := Res CErr α) (lift g r) 0 := by
  cases r <;> exact .ret

end

/-- New layers weigh `a`, mount directories `m`, spaces `s`, everything else nothing. -/
def callWeight (a m s : Nat) : Cmd → Nat
  | .mkdirLayer _ => a
  | .mkdirMount _ => m
  | .mkdirSpace _ => s
  | _ => 0

section
variable {a m s : Nat}

macro "weigh0" : tactic => `(tactic| repeat' (first
  | exact .ret
  | exact weighs_ask (wt := callWeight _ _ _)
  | exact weighs_need _ _
  | exact weighs_lift _ _
  | assumption
  | (refine weighs_fix ?_ fun x => ?_)
  | split))

theorem layerCreate_weighs : Weighs (callWeight a m s) (α := Res CErr UID) layerCreate a := by
  unfold layerCreate
  refine weighs_fix (weighs_ask (c := .rand)) fun u => ?_
  exact weighs_seq (m := 0) (weighs_ask (c := .mkdirLayer u)) fun _ => by weigh0

theorem spaceInitP_weighs : Weighs (callWeight a m s) (α := Res CErr TS) spaceInitP a :=
  weighs_seq (m := 0) layerCreate_weighs fun _ => weighs_lift _ _

theorem spaceSave_weighs (n : Str) (t : TS) : Weighs (callWeight a m s) (α := Res CErr Unit) (spaceSave n t) 0 := by
  unfold spaceSave; weigh0

theorem createLayer_weighs (t : TS) (u : UID) : Weighs (callWeight a m s) (α := Res CErr (TS × Ref)) (createLayer t u) a := by
  unfold createLayer
  split
  · exact .ret
  · exact weighs_seq (m := 0) layerCreate_weighs fun _ => by weigh0

theorem layerChain_weighs (heap : List NodeObj) : ∀ (n : Nat) (r : Option Ref), Weighs (callWeight a m s) (α := Res CErr (List UID)) (layerChain heap n r) 0
  | _, none => by unfold layerChain; exact .ret
  | 0, some _ => by unfold layerChain; exact .ret
  | n + 1, some r => by
    have ih := layerChain_weighs heap n
    unfold layerChain
    split
    · exact .ret
    · exact weighs_fix (weighs_ask (c := .isDirLayer _)) fun x => weighs_fix (weighs_need _ _) fun _ => weighs_fix (ih _) fun _ => .ret

theorem spaceCreateMount_weighs (t : TS) (u i : UID) : Weighs (callWeight a m s) (α := Res CErr (TS × MountObj × Ref)) (spaceCreateMount t u i) a := by
  unfold spaceCreateMount
  refine weighs_seq (m := 0) (createLayer_weighs t u) fun x => weighs_fix (layerChain_weighs _ _ _) fun l => ?_
  split <;> exact .ret

theorem createMount_weighs (t : TS) (u : UID) : Weighs (callWeight a m s) (α := Res CErr (TS × MountObj × Ref)) (createMount t u) (m + a) :=
  weighs_fix (weighs_ask (c := .rand)) fun i => weighs_seq (weighs_ask (c := .mkdirMount i.base32)) fun _ => weighs_fix (weighs_need _ _) fun _ => spaceCreateMount_weighs _ _ _

theorem createSpace_weighs : Weighs (callWeight a m s) (α := Res CErr (UID × TS)) createSpace (s + a) :=
  weighs_fix (weighs_ask (c := .rand)) fun i => weighs_seq (weighs_ask (c := .mkdirSpace i.base32)) fun _ => weighs_fix (weighs_need _ _) fun _ =>
    weighs_seq (m := 0) spaceInitP_weighs fun _ => .ret

theorem saveInfo_weighs (E : Env) (w : OpenWs) : Weighs (callWeight a m s) (α := Res CErr Unit) (saveInfo E w) 0 := by
  unfold saveInfo; weigh0

theorem saveAll_weighs (E : Env) (w : OpenWs) : Weighs (callWeight a m s) (α := Res CErr OpenWs) (saveAll E w) 0 :=
  weighs_fix (spaceSave_weighs _ _) fun _ => weighs_fix (saveInfo_weighs E w) fun _ => .ret

theorem createWorkspace_weighs (E : Env) (p b : Str) : Weighs (callWeight a m s) (α := Res CErr OpenWs) (createWorkspace E p b) (s + a + (m + a)) := by
  refine weighs_seq createSpace_weighs fun ⟨i, t⟩ => ?_
  dsimp only
  split
  · exact .ret
  · exact weighs_seq (m := 0) (createMount_weighs _ _) fun _ => weighs_fix (weighs_ask (c := .rand)) fun _ => weighs_fix (weighs_lift _ _) fun _ => saveAll_weighs E _

theorem loadInfo_weighs (i : UID) : Weighs (callWeight a m s) (α := Res CErr WsInfo) (loadInfo i) 0 := by
  unfold loadInfo; weigh0

theorem linkOf_weighs (p : Str) : Weighs (callWeight a m s) (α := Res CErr (Option Str)) (linkOf p) 0 := by
  unfold linkOf; weigh0

theorem getWorkspace_weighs (E : Env) (cwd p : Str) : Weighs (callWeight a m s) (α := Res CErr OpenWs) (getWorkspace E cwd p) 0 := by
  unfold getWorkspace
  refine weighs_fix (linkOf_weighs _) fun _ => weighs_fix (weighs_lift _ _) fun i => weighs_fix (loadInfo_weighs i) fun _ => ?_
  weigh0

theorem moveBranch_weighs (t : TS) (b : BranchInfo) (r : Ref) : Weighs (callWeight a m s) (α := Res CErr TS) (moveBranch t b r) 0 := by
  unfold moveBranch; weigh0

theorem commitP_weighs (E : Env) (w : OpenWs) (ci : CommitInfo) : Weighs (callWeight a m s) (α := Res CErr OpenWs) (commitP E w ci) (m + a) := by
  unfold commitP
  split
  · exact .ret
  · split
    · exact .ret
    · exact weighs_seq (m := 0) (createMount_weighs _ _) fun _ => weighs_fix (moveBranch_weighs _ _ _) fun _ => saveAll_weighs E _

theorem checkoutP_weighs (E : Env) (w : OpenWs) (key : Str) : Weighs (callWeight a m s) (α := Res CErr OpenWs) (checkoutP E w key) (m + a) := by
  unfold checkoutP
  refine weighs_fix (weighs_lift _ _) fun x => ?_
  split
  · exact .ret
  · split
    · exact .ret
    · exact weighs_seq (m := 0) (createMount_weighs _ _) fun _ => saveAll_weighs E _

theorem cloneP_weighs (E : Env) (w : OpenWs) (t : Str) : Weighs (callWeight a m s) (α := Res CErr OpenWs) (cloneP E w t) (m + a) :=
  weighs_fix (weighs_lift _ _) fun _ => weighs_seq (m := 0) (createMount_weighs _ _) fun _ => weighs_fix (weighs_ask (c := .rand)) fun _ => saveAll_weighs E _

theorem mountP_weighs (o : MountObj) : Weighs (callWeight a m s) (α := Res CErr Unit) (mountP o) 0 := by
  unfold mountP; weigh0

theorem expand_weighs (E : Env) (w : OpenWs) : Weighs (callWeight a m s) (α := Res CErr Unit) (expand E w) 0 := by
  unfold expand
  refine weighs_fix (mountP_weighs _) fun _ => ?_
  weigh0

theorem removeMount_weighs (o : MountObj) : Weighs (callWeight a m s) (α := Res CErr Unit) (removeMount o) 0 := by
  unfold removeMount; weigh0

theorem initCmd_weighs (E : Env) (p b : Str) : Weighs (callWeight a m s) (α := Res CErr OpenWs) (initCmd E p b) (s + a + (m + a)) := by
  have h : Weighs (callWeight a m s) (α := Res CErr OpenWs) (M.bind (createWorkspace E p b) fun w => M.bind (expand E w) fun _ => M.pure w) (s + a + (m + a)) :=
    weighs_seq (m := 0) (createWorkspace_weighs E p b) fun w => weighs_fix (expand_weighs E w) fun _ => .ret
  unfold initCmd
  refine weighs_fix (weighs_ask (c := .exists_ p)) fun x => ?_
  split
  · exact weighs_fix (weighs_ask (c := .isEmptyDir p)) fun _ => weighs_fix (weighs_need _ _) fun _ => h
  · exact h

theorem cloneCmd_weighs (E : Env) (cwd x t : Str) : Weighs (callWeight a m s) (α := Res CErr OpenWs) (cloneCmd E cwd x t) (m + a) :=
  weighs_fix (getWorkspace_weighs E cwd x) fun _ => weighs_seq (m := 0) (cloneP_weighs E _ t) fun _ => weighs_fix (expand_weighs E _) fun _ => .ret

theorem commitCmd_weighs (E : Env) (cwd : Str) (ci : CommitInfo) : Weighs (callWeight a m s) (α := Res CErr (OpenWs × OpenWs)) (commitCmd E cwd ci) (m + a) :=
  weighs_fix (getWorkspace_weighs E cwd _) fun _ => weighs_seq (m := 0) (commitP_weighs E _ ci) fun _ => weighs_fix (expand_weighs E _) fun _ =>
    weighs_fix (removeMount_weighs _) fun _ => .ret

theorem checkoutCmd_weighs (E : Env) (cwd key : Str) : Weighs (callWeight a m s) (α := Res CErr (OpenWs × OpenWs)) (checkoutCmd E cwd key) (m + a) :=
  weighs_fix (getWorkspace_weighs E cwd _) fun _ => weighs_seq (m := 0) (checkoutP_weighs E _ key) fun _ => weighs_fix (expand_weighs E _) fun _ =>
    weighs_fix (removeMount_weighs _) fun _ => .ret

theorem editAll_weighs (dir : Str) (w : Ws) : ∀ (es : List Edit) (t : TS), Weighs (callWeight a m s) (α := Res CErr TS) (editAll dir w es t) 0
  | [], _ => .ret
  | _ :: es, _ => weighs_fix (weighs_lift _ _) fun _ => weighs_fix (spaceSave_weighs _ _) fun _ => editAll_weighs dir w es _

theorem editCmd_weighs (E : Env) (cwd : Str) (es : List Edit) : Weighs (callWeight a m s) (α := Res CErr TS) (editCmd E cwd es) 0 :=
  weighs_fix (getWorkspace_weighs E cwd _) fun _ => editAll_weighs _ _ es _

theorem command_weighs (E : Env) (c : Command) : Weighs (callWeight a m s) (α := Res CErr Out) (c.prog E) (s * c.spaces + m * c.mounts + a * c.layers) := by
  cases c with
  | init p b =>
    refine weighs_mono (weighs_seq (m := 0) (initCmd_weighs E p b) fun _ => .ret) ?_
    simp only [Command.spaces, Command.mounts, Command.layers]; omega
  | clone cwd x t =>
    refine weighs_mono (weighs_seq (m := 0) (cloneCmd_weighs E cwd x t) fun _ => .ret) ?_
    simp only [Command.spaces, Command.mounts, Command.layers]; omega
  | commit cwd ci =>
    refine weighs_mono (weighs_seq (m := 0) (commitCmd_weighs E cwd ci) fun _ => .ret) ?_
    simp only [Command.spaces, Command.mounts, Command.layers]; omega
  | checkout cwd key =>
    refine weighs_mono (weighs_seq (m := 0) (checkoutCmd_weighs E cwd key) fun _ => .ret) ?_
    simp only [Command.spaces, Command.mounts, Command.layers]; omega
  | edit cwd es => exact weighs_mono (weighs_seq (m := 0) (editCmd_weighs E cwd es) fun _ => .ret) (Nat.zero_le _)
  | look cwd => exact weighs_mono (weighs_seq (m := 0) (getWorkspace_weighs E cwd _) fun _ => .ret) (Nat.zero_le _)

end

/-! ## Many commands -/

/-- The sum of the first `n` values. -/
def sumTo (g : Nat → Nat) : Nat → Nat
  | 0 => 0
  | n + 1 => sumTo g n + g n

theorem sumTo_out {g : Nat → Nat} {i x : Nat} : ∀ {n : Nat}, n ≤ i → sumTo (upd g i x) n = sumTo g n
  | 0, _ => rfl
  | n + 1, h => by rw [sumTo, sumTo, sumTo_out (by omega), upd_ne _ _ (by omega)]

theorem sumTo_upd {g : Nat → Nat} {i x : Nat} : ∀ {n : Nat}, i < n → sumTo (upd g i x) n + g i = sumTo g n + x
  | 0, h => absurd h (by omega)
  | n + 1, h => by
    rw [sumTo, sumTo]
    by_cases e : i = n
    · subst e; rw [sumTo_out (Nat.le_refl _), upd_self]; omega
    · have := sumTo_upd (g := g) (x := x) (i := i) (n := n) (by omega)
      rw [upd_ne _ _ (fun h => e h.symm)]; omega

theorem sumTo_zero {g : Nat → Nat} {n : Nat} (hz : ∀ i, n ≤ i → g i = 0) : ∀ (k : Nat), sumTo g (n + k) = sumTo g n
  | 0 => rfl
  | k + 1 => by rw [← Nat.add_assoc, sumTo, sumTo_zero hz k, hz _ (by omega)]; rfl

section
variable {E : Env} {f : Faults}

/-- The general bound. `dom d k` says that there is a thing named `k` on the disk `d`. -/
theorem made_bound {κ : Type} {dom : Disk → κ → Prop} {wt : Cmd → Nat} {cost : Command → Nat} (hc : ∀ c, Weighs wt (α := Res CErr Out) (c.prog E) (cost c))
    (hstep : ∀ {o : Nat} {c : Cmd} {d d' : Disk} {x : c.Ans}, Step (E.as o) f c d x d' → (∀ k, dom d' k → dom d k) ∨ (wt c = 1 ∧ ∃ k0, ∀ k, dom d' k → dom d k ∨ k = k0))
    (hout : ∀ {d d' : Disk}, Outside d d' → ∀ k, dom d' k → dom d k)
    {w w' : World} (h0 : ∀ i, w.procs i = none) {cs : List Command} (h : Sys.Logged E f w cs w') :
    ∃ new : List κ, new.length ≤ (cs.map cost).sum ∧ ∀ k, dom w'.disk k → dom w.disk k ∨ k ∈ new := by
  suffices h' : ∃ (new : List κ) (left : Nat → Nat) (n : Nat), (∀ i, n ≤ i → left i = 0) ∧ new.length + sumTo left n ≤ (cs.map cost).sum ∧
      (∀ i p, w'.procs i = some p → i < n ∧ Weighs wt p.prog (left i)) ∧ ∀ k, dom w'.disk k → dom w.disk k ∨ k ∈ new by
    obtain ⟨new, left, n, _, h1, _, h2⟩ := h'
    exact ⟨new, by omega, h2⟩
  induction h with
  | refl => exact ⟨[], fun _ => 0, 0, fun _ _ => rfl, (by simp [sumTo]), (fun i p hp => by rw [h0] at hp; cases hp), fun _ h => Or.inl h⟩
  | @start w1 cs i c _ hi ih =>
    obtain ⟨new, left, n, hz, hs, hp, hd⟩ := ih
    let N := n + (i + 1)
    have hN : sumTo left N = sumTo left n := sumTo_zero hz (i + 1)
    have hu := sumTo_upd (g := left) (x := cost c) (i := i) (n := N) (by omega)
    refine ⟨new, upd left i (cost c), N, fun j hj => ?_, ?_, fun j p hj => ?_, hd⟩
    · rw [upd_ne _ _ (by omega)]; exact hz j (by omega)
    · simp only [List.map_cons, List.sum_cons]; omega
    · by_cases e : j = i
      · subst e
        simp only [upd_self, Option.some.injEq] at hj
        subst hj
        rw [upd_self]
        exact ⟨by omega, hc c⟩
      · simp only [upd_ne _ _ e] at hj
        rw [upd_ne _ _ e]
        exact ⟨by have := (hp j p hj).1; omega, (hp j p hj).2⟩
  | @next w1 w2 cs _ hn hno ih =>
    obtain ⟨new, left, n, hz, hs, hp, hd⟩ := ih
    cases hn with
    | start i c hi => have := hno i hi; simp only [upd_self] at this; cases this
    | @run i p c k x d' o hpi hprog hst =>
      obtain ⟨hin, hw⟩ := hp i p hpi
      rw [hprog] at hw
      obtain ⟨m, hm, hk⟩ : ∃ m, left i = m + wt c ∧ ∀ x, Weighs wt (k x) m := by
        generalize left i = b at hw
        cases hw with
        | op h => exact ⟨_, rfl, h⟩
      have hu := sumTo_upd (g := left) (x := m) (i := i) (n := n) hin
      have hleft : ∀ j, n ≤ j → upd left i m j = 0 := fun j hj => by rw [upd_ne _ _ (by omega)]; exact hz j hj
      have hprocs : ∀ j q, upd w1.procs i (some ⟨p.start, ⟨c, x⟩ :: p.tr, k x⟩) j = some q → j < n ∧ Weighs wt q.prog (upd left i m j) := by
        intro j q hj
        by_cases e : j = i
        · subst e
          simp only [upd_self, Option.some.injEq] at hj
          subst hj
          rw [upd_self]
          exact ⟨hin, hk x⟩
        · rw [upd_ne _ _ e] at hj ⊢
          exact hp j q hj
      rcases hstep hst with hsame | ⟨h1, k0, hnew⟩
      · exact ⟨new, upd left i m, n, hleft, by omega, hprocs, fun v hv => hd v (hsame v hv)⟩
      · refine ⟨k0 :: new, upd left i m, n, hleft, by simp only [List.length_cons]; omega, hprocs, fun v hv => ?_⟩
        rcases hnew v hv with h | rfl
        · exact (hd v h).imp_right (List.mem_cons_of_mem _)
        · exact Or.inr List.mem_cons_self
    | kill i =>
      refine ⟨new, left, n, hz, hs, fun j q hj => ?_, hd⟩
      by_cases e : j = i
      · subst e; simp only [upd_self] at hj; cases hj
      · simp only [upd_ne _ _ e] at hj; exact hp j q hj
    | outside ho => exact ⟨new, left, n, hz, hs, hp, fun v hv => hd v (hout ho v hv)⟩

theorem put_layers (d : Disk) (u : UID) (c : Content) (v : UID) : (d.put u c).layer v = none ↔ d.layer v = none := by
  rcases put_layer d u v c with h | ⟨rfl, ⟨c0, h0⟩, h1⟩
  · rw [h]
  · rw [h0, h1]; simp

theorem mdir_made {e : Ev} {d d' : Disk} (h : Effect e d d') :
    (∀ n, d'.mdir n ≠ none → d.mdir n ≠ none) ∨ ∃ n, e.1 = .mkdirMount n ∧ ∀ k, d'.mdir k ≠ none → d.mdir k ≠ none ∨ k = n := by
  cases h with
  | @mkMount n _ hn =>
    refine Or.inr ⟨n, rfl, fun k hk => ?_⟩
    by_cases e : k = n
    · exact Or.inr e
    · simp only [Disk.setMdir, upd_ne _ _ e] at hk; exact Or.inl hk
  | @mdir n _ m m' _ hm =>
    refine Or.inl fun k hk => ?_
    by_cases e : k = n
    · subst e; rw [hm]; simp
    · simp only [Disk.setMdir, upd_ne _ _ e] at hk; exact hk
  | upper _ c _ => exact Or.inl fun k hk => by rw [(put_rest _ _ c).2.1] at hk; exact hk
  | @wipe n m _ c w _ =>
    refine Or.inl fun k hk => ?_
    by_cases e : k = n
    · subst e
      simp only [Disk.setMdir, upd_self] at hk
      intro h0; rw [h0] at hk; exact hk rfl
    · simp only [Disk.setMdir, upd_ne _ _ e] at hk
      rw [(put_rest _ _ c).2.1] at hk; exact hk
  | @rmMount n _ _ =>
    refine Or.inl fun k hk => ?_
    by_cases e : k = n
    · subst e; simp [Disk.setMdir] at hk
    · simp only [Disk.setMdir, upd_ne _ _ e] at hk; exact hk
  | _ => exact Or.inl fun _ h => h

theorem space_made {e : Ev} {d d' : Disk} (h : Effect e d d') :
    (∀ n, d'.space n ≠ none → d.space n ≠ none) ∨ ∃ n, e.1 = .mkdirSpace n ∧ ∀ k, d'.space k ≠ none → d.space k ≠ none ∨ k = n := by
  cases h with
  | @mkSpace n _ hn =>
    refine Or.inr ⟨n, rfl, fun k hk => ?_⟩
    by_cases e : k = n
    · exact Or.inr e
    · simp only [Disk.setSpace, upd_ne _ _ e] at hk; exact Or.inl hk
  | upper _ c _ => exact Or.inl fun k hk => by rw [(put_rest _ _ c).1] at hk; exact hk
  | wipe c w _ => exact Or.inl fun k hk => by simp only [Disk.setMdir] at hk; rw [(put_rest _ _ c).1] at hk; exact hk
  | @truncTree n _ hn =>
    refine Or.inl fun k hk => ?_
    by_cases e : k = n
    · subst e; exact hn
    · simp only [Disk.setSpace, upd_ne _ _ e] at hk; exact hk
  | @writeTree n _ _ _ _ _ hn =>
    refine Or.inl fun k hk => ?_
    by_cases e : k = n
    · subst e; rw [hn]; simp
    · simp only [Disk.setSpace, upd_ne _ _ e] at hk; exact hk
  | _ => exact Or.inl fun _ h => h

/-- **C93.** However many commands run, at the same time or one after another, whatever fails, and whichever are killed: there are at most as many new layers as two for every
`init` that was started and one for every `clone`, `commit` and `checkout`. -/
theorem C93_layers {w w' : World} (h0 : ∀ i, w.procs i = none) {cs : List Command} (h : Sys.Logged E f w cs w') :
    ∃ new : List UID, new.length ≤ (cs.map Command.layers).sum ∧ ∀ v, w'.disk.layer v ≠ none → w.disk.layer v ≠ none ∨ v ∈ new := by
  refine made_bound (dom := fun d v => d.layer v ≠ none) (wt := callWeight 1 0 0) (fun c => by simpa using command_weighs (a := 1) (m := 0) (s := 0) E c) ?_ ?_ h0 h
  · intro o c d d' x hs
    have he := step_effect hs
    by_cases hw : ∃ u, c = .mkdirLayer u
    · obtain ⟨u, rfl⟩ := hw
      refine Or.inr ⟨rfl, u, fun v hv => ?_⟩
      rcases eff_layer he v with h | ⟨h, _⟩ | ⟨h, _⟩ | ⟨n, m, c0, _, _, ⟨c1, h⟩, _⟩
      · rw [h] at hv; exact Or.inl hv
      · have := congrArg Sigma.fst h; cases this; exact Or.inr rfl
      · have := congrArg Sigma.fst h; cases this
      · exact Or.inl (by rw [h]; simp)
    · refine Or.inl fun v hv => ?_
      rcases eff_layer he v with h | ⟨h, _⟩ | ⟨_, h, _⟩ | ⟨n, m, c0, _, _, ⟨c1, h⟩, _⟩
      · rwa [h] at hv
      · exact absurd ⟨v, congrArg Sigma.fst h⟩ hw
      · rw [h]; simp
      · rw [h]; simp
  · intro d d' ho v hv hn
    cases ho with
    | write c hm => exact hv ((put_layers d _ c v).2 hn)
    | _ => exact hv hn

/-- **C93.** No layer is ever removed, whatever runs. -/
theorem C93_layers_stay {w w' : World} (h : Sys.Steps E f w w') {v : UID} (hv : w.disk.layer v ≠ none) : w'.disk.layer v ≠ none := by
  induction h with
  | refl => exact hv
  | step _ hn ih =>
    cases hn with
    | start => exact ih
    | kill => exact ih
    | run _ _ hs =>
      rcases eff_layer (step_effect hs) v with h | ⟨_, _, h⟩ | ⟨_, _, h⟩ | ⟨n, m, c0, _, _, _, h⟩
      · simp only [h]; exact ih
      · simp only [h]; simp
      · simp only [h]; simp
      · simp only [h]; simp
    | outside ho =>
      cases ho with
      | write c hm => exact fun hn => ih ((put_layers _ _ c v).1 hn)
      | _ => exact ih

/-- **C93.** Likewise there is at most one new mount directory for every `init`, `clone`, `commit` and `checkout`. -/
theorem C93_mounts {w w' : World} (h0 : ∀ i, w.procs i = none) {cs : List Command} (h : Sys.Logged E f w cs w') :
    ∃ new : List Str, new.length ≤ (cs.map Command.mounts).sum ∧ ∀ n, w'.disk.mdir n ≠ none → w.disk.mdir n ≠ none ∨ n ∈ new := by
  refine made_bound (dom := fun d v => d.mdir v ≠ none) (wt := callWeight 0 1 0) (fun c => by simpa using command_weighs (a := 0) (m := 1) (s := 0) E c) ?_ ?_ h0 h
  · intro o c d d' x hs
    rcases mdir_made (step_effect hs) with h | ⟨n, h, h1⟩
    · exact Or.inl h
    · subst h; exact Or.inr ⟨rfl, n, h1⟩
  · intro d d' ho v hv hn
    cases ho with
    | write c hm => rw [(put_rest d _ c).2.1] at hv; exact hv hn
    | @stray n m c h1 h2 =>
      by_cases e : v = n
      · subst e; rw [h2] at hn; cases hn
      · simp only [Disk.setMdir, upd_ne _ _ e] at hv; exact hv hn
    | _ => exact hv hn

/-- **C93.** And at most one new space for every `init`. -/
theorem C93_spaces {w w' : World} (h0 : ∀ i, w.procs i = none) {cs : List Command} (h : Sys.Logged E f w cs w') :
    ∃ new : List Str, new.length ≤ (cs.map Command.spaces).sum ∧ ∀ n, w'.disk.space n ≠ none → w.disk.space n ≠ none ∨ n ∈ new := by
  refine made_bound (dom := fun d v => d.space v ≠ none) (wt := callWeight 0 0 1) (fun c => by simpa using command_weighs (a := 0) (m := 0) (s := 1) E c) ?_ ?_ h0 h
  · intro o c d d' x hs
    rcases space_made (step_effect hs) with h | ⟨n, h, h1⟩
    · exact Or.inl h
    · subst h; exact Or.inr ⟨rfl, n, h1⟩
  · intro d d' ho v hv hn
    cases ho with
    | write c hm => rw [(put_rest d _ c).1] at hv; exact hv hn
    | _ => exact hv hn

/-- What `commit` and `checkout` change in the data directory, apart from the tree: one new, empty layer and one mount directory in the place of another. -/
structure Swapped (o : Nat) (d d' : Disk) : Prop where
  layer : ∃ u, d.layer u = none ∧ d'.layer = upd d.layer u (some (some (Content.empty.chown o)))
  mdir : ∃ n m x, d.mdir n = none ∧ d.mdir m ≠ none ∧ d'.mdir = upd (upd d.mdir n (some x)) m none

/-- What `clone` changes: one new, empty layer and one new mount directory. -/
structure OneMore (o : Nat) (d d' : Disk) : Prop where
  layer : ∃ u, d.layer u = none ∧ d'.layer = upd d.layer u (some (some (Content.empty.chown o)))
  mdir : ∃ n x, d.mdir n = none ∧ d'.mdir = upd d.mdir n (some x)

theorem fresh_mdir_removed {d d' : Disk} {n m : Str} {u' : UID} {ls : List UID} {path : Str} (h : Fresh E d d' n (· = m) u' ls path) (hm : d.mdir m ≠ none) :
    ∃ n m x, d.mdir n = none ∧ d.mdir m ≠ none ∧ d'.mdir = upd (upd d.mdir n (some x)) m none := by
  have hne : n ≠ m := by rintro rfl; exact hm h.newMdir
  refine ⟨n, m, ⟨some .empty, true⟩, h.newMdir, hm, funext fun k => ?_⟩
  by_cases e : k = m
  · subst e; rw [upd_self, (h.gone k rfl).2.2]
  · rw [upd_ne _ _ e]
    by_cases e' : k = n
    · subst e'; rw [upd_self, h.mdir]
    · rw [upd_ne _ _ e', (h.others k e' e).2.2]

/-- **C93.** A commit that succeeds adds one empty layer to the layers that are there. No file is copied, and as many mount directories are there as before. -/
theorem C93_commit {d d' : Disk} (hd : Reachable E d) {cwd : Str} (hout : E.Outside (Path.abs cwd (lit "."))) {ci : CommitInfo} {w : OpenWs}
    (hg : Gets E d cwd (lit ".") w) {r : OpenWs × OpenWs} (he : Exec E f (commitCmd E cwd ci) d (.ok r) d') : Swapped E.owner d d' := by
  obtain ⟨g, hs⟩ := steady_reachable hd
  obtain ⟨u, p, T, hF⟩ := found_of_gets hs hout hg
  obtain ⟨_, _, u', ls, g', w2, _, _, _, _, _, _, _, _, _, _, h, _⟩ := after_commit hs hF he
  exact ⟨⟨u', h.newLayer, h.layer⟩, fresh_mdir_removed h hF.mdir⟩

/-- **C93.** The same for a checkout. -/
theorem C93_checkout {d d' : Disk} (hd : Reachable E d) {cwd key : Str} (hout : E.Outside (Path.abs cwd (lit "."))) {w : OpenWs}
    (hg : Gets E d cwd (lit ".") w) {r : OpenWs × OpenWs} (he : Exec E f (checkoutCmd E cwd key) d (.ok r) d') : Swapped E.owner d d' := by
  obtain ⟨g, hs⟩ := steady_reachable hd
  obtain ⟨u, p, T, hF⟩ := found_of_gets hs hout hg
  obtain ⟨_, v, kt, u', ls, g', w2, _, _, _, _, _, _, _, _, _, _, _, h⟩ := after_checkout hs hF he
  exact ⟨⟨u', h.newLayer, h.layer⟩, fresh_mdir_removed h hF.mdir⟩

/-- **C93.** A clone copies nothing either. -/
theorem C93_clone {d d' : Disk} (hd : Reachable E d) {cwd source cwd2 path2 : Str} (hout : E.Outside (Path.abs cwd source)) (hout2 : E.Outside (Path.abs cwd2 path2)) {w : OpenWs}
    (hg : Gets E d cwd source w) {w' : OpenWs} (he : Exec E f (cloneCmd E cwd source (Path.abs cwd2 path2)) d (.ok w') d') : OneMore E.owner d d' := by
  obtain ⟨g, hs⟩ := steady_reachable hd
  obtain ⟨u, p, T, hF⟩ := found_of_gets hs hout hg
  obtain ⟨u', ls, g', w2, _, _, _, _, _, _, _, _, _, _, h⟩ := after_clone hs hF hout2 he
  refine ⟨⟨u', h.newLayer, h.layer⟩, w2.mount.id.base32, ⟨some .empty, true⟩, h.newMdir, funext fun k => ?_⟩
  by_cases e : k = w2.mount.id.base32
  · rw [e, upd_self, h.mdir]
  · rw [upd_ne _ _ e, (h.others k e (fun x => x)).2.2]

/-- **C93.** An init adds two empty layers. -/
theorem C93_init {d d' : Disk} (hd : Reachable E d) {cwd path branch : Str} (hout : E.Outside (Path.abs cwd path)) {w' : OpenWs}
    (he : Exec E f (initCmd E (Path.abs cwd path) branch) d (.ok w') d') :
    (∃ u v, u ≠ v ∧ d.layer u = none ∧ d.layer v = none ∧ d'.layer = upd (upd d.layer u (some (some .empty))) v (some (some (Content.empty.chown E.owner)))) ∧
    (∃ n x, d.mdir n = none ∧ d'.mdir = upd d.mdir n (some x)) ∧ ∃ n b, d.space n = none ∧ d'.space = upd d.space n (some (some b)) := by
  obtain ⟨g, hs⟩ := steady_reachable hd
  obtain ⟨root, u', dp, g', w2, hFo, _, _, _, hne, _, _, _, _, h, b, _, hsp⟩ := after_init hs hout he
  refine ⟨⟨root, u', Ne.symm hne, hFo.newLayer, ?_, ?_⟩, ⟨w2.mount.id.base32, ⟨some .empty, true⟩, ?_, ?_⟩, w2.spaceDir, b, hFo.newSpace, ?_⟩
  · have := h.newLayer; rw [hFo.layer, upd_ne _ _ hne] at this; exact this
  · rw [h.layer, hFo.layer]
  · have := h.newMdir; rw [hFo.mdir] at this; exact this
  · funext k
    by_cases e : k = w2.mount.id.base32
    · rw [e, upd_self, h.mdir]
    · rw [upd_ne _ _ e, (h.others k e (fun x => x)).2.2, hFo.mdir]
  · rw [hsp, hFo.space]; funext k
    by_cases e : k = w2.spaceDir
    · rw [e, upd_self, upd_self]
    · rw [upd_ne _ _ e, upd_ne _ _ e, upd_ne _ _ e]

end
end Verif
