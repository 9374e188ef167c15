import Verif.Misc.Parents
import Verif.Props.NodeLock
/-!
# The parent of a shared node (C105)
-/
set_option autoImplicit false
namespace Verif
namespace Parents
open Linear (Ev Stage Proper Replay Linearizes)

theorem set_at (s : Sys) (t : Nat) (x : Thread) : (s.set t x).thr t = x := by simp [Sys.set]
theorem set_other (s : Sys) {t k : Nat} (x : Thread) (h : k ≠ t) : (s.set t x).thr k = s.thr k := by simp [Sys.set, h]

/-- The call leaves the node a root, or not a root. -/
def Call.Fine (kind : Ref → Bool) : Call → Prop
  | .parent _ => True
  | .setParent n p => p.isSome = kind n

/-- What is known of a goroutine if all calls do. -/
def Thread.Fine (kind : Ref → Bool) : Thread → Prop
  | .idle todo => ∀ c ∈ todo, c.Fine kind
  | .setting n p _ _ todo => p.isSome = kind n ∧ ∀ c ∈ todo, c.Fine kind
  | .getting n y _ todo => (∀ b, y = some b → b = kind n) ∧ ∀ c ∈ todo, c.Fine kind
  | .back _ todo => ∀ c ∈ todo, c.Fine kind

/-- A call happens when it writes or reads the pointer. -/
def Thread.stage (kind : Ref → Bool) : Thread → Stage Ans Call
  | .idle _ => .between
  | .setting n p _ false _ => .called (.setParent n p)
  | .setting _ _ _ true _ => .happened .done
  | .getting n _ none _ => .called (.parent n)
  | .getting n _ (some q) _ => .happened (.node ⟨kind n, q⟩)
  | .back a _ => .happened a

/-- What holds at every moment: `a` are the parents that the calls have made. -/
structure Inv (kind : Ref → Bool) (m0 : Ref → Option Ref) (s : Sys) (es : List (Ev Ans Call)) (a : Ref → Option Ref) : Prop where
  replay : Replay Does m0 es a
  proper : ∀ t, Proper t es ((s.thr t).stage kind)
  mem : ∀ n, s.mem n = ⟨kind n, a n⟩
  kinds : ∀ n, (a n).isSome = kind n
  fine : ∀ t, (s.thr t).Fine kind

theorem inv_quiet {kind : Ref → Bool} {m0 a : Ref → Option Ref} {s : Sys} {es : List (Ev Ans Call)} (h : Inv kind m0 s es a) {t : Nat} {x : Thread}
    (hx : x.stage kind = (s.thr t).stage kind) (hf : x.Fine kind) : Inv kind m0 (s.set t x) es a := by
  refine ⟨h.replay, fun k => ?_, h.mem, h.kinds, fun k => ?_⟩
  · by_cases hk : k = t
    · subst hk; rw [set_at, hx]; exact h.proper k
    · rw [set_other _ _ hk]; exact h.proper k
  · by_cases hk : k = t
    · subst hk; rw [set_at]; exact hf
    · rw [set_other _ _ hk]; exact h.fine k

theorem inv_event {kind : Ref → Bool} {m0 a a' : Ref → Option Ref} {s : Sys} {mem : Ref → Words} {es : List (Ev Ans Call)} (h : Inv kind m0 s es a) {t : Nat} {x : Thread} {e : Ev Ans Call}
    (he : e.who = t) (hr : Replay Does m0 (es ++ [e]) a') (hp : Proper t (es ++ [e]) (x.stage kind)) (hm : ∀ n, mem n = ⟨kind n, a' n⟩) (hk : ∀ n, (a' n).isSome = kind n)
    (hf : x.Fine kind) : Inv kind m0 { s.set t x with mem := mem } (es ++ [e]) a' := by
  refine ⟨hr, fun k => ?_, hm, hk, fun k => ?_⟩
  · show Proper k _ (((s.set t x).thr k).stage kind)
    by_cases hk : k = t
    · subst hk; rw [set_at]; exact hp
    · rw [set_other _ _ hk]; exact .other (h.proper k) (by rw [he]; exact fun e => hk e.symm)
  · show ((s.set t x).thr k).Fine kind
    by_cases hk : k = t
    · subst hk; rw [set_at]; exact hf
    · rw [set_other _ _ hk]; exact h.fine k

theorem inv_step {kind : Ref → Bool} {m0 a : Ref → Option Ref} {s s' : Sys} {es e : List (Ev Ans Call)} (h : Inv kind m0 s es a) (hs : Step s e s') :
    ∃ es' a', Inv kind m0 s' (es ++ es') a' ∧ es'.filter Ev.seen = e := by
  cases hs with
  | @callGet t n todo h1 =>
    have hp := h.proper t; have hf := h.fine t
    rw [h1] at hp hf
    exact ⟨[.inv t (.parent n)], a, inv_event h rfl (.seen h.replay rfl) (.inv hp) h.mem h.kinds ⟨nofun, fun c hc => hf c (List.mem_cons_of_mem _ hc)⟩, rfl⟩
  | @callSet t n p todo h1 =>
    have hp := h.proper t; have hf := h.fine t
    rw [h1] at hp hf
    exact ⟨[.inv t (.setParent n p)], a, inv_event h rfl (.seen h.replay rfl) (.inv hp) h.mem h.kinds
      ⟨hf _ (List.mem_cons_self ..), fun c hc => hf c (List.mem_cons_of_mem _ hc)⟩, rfl⟩
  | @getTyp t n q todo h1 =>
    have hf := h.fine t
    rw [h1] at hf
    refine ⟨[], a, ?_, rfl⟩
    rw [List.append_nil]
    refine inv_quiet h ?_ ⟨fun b hb => ?_, hf.2⟩
    · rw [h1]; cases q <;> rfl
    · rw [← Option.some.inj hb, h.mem]
  | @getPtr t n y todo h1 =>
    have hp := h.proper t; have hf := h.fine t
    rw [h1] at hp hf
    refine ⟨[.lin t (.parent n) (.node ⟨kind n, a n⟩)], a, inv_event h rfl (.lin h.replay ⟨?_, rfl⟩) ?_ h.mem h.kinds hf, rfl⟩
    · rw [words, h.kinds]
    · rw [h.mem]; exact .lin hp
  | @got t n y q todo h1 =>
    have hf := h.fine t
    rw [h1] at hf
    refine ⟨[], a, ?_, rfl⟩
    rw [List.append_nil]
    refine inv_quiet h ?_ hf.2
    rw [h1, hf.1 y rfl]; rfl
  | @setTyp t n p b todo h1 =>
    have hp := h.proper t; have hf := h.fine t
    rw [h1] at hp hf
    have hm : put s.mem n ⟨p.isSome, (s.mem n).ptr⟩ = s.mem := by
      funext x
      unfold put
      split
      · next e => subst e; rw [hf.1, h.mem]
      · rfl
    refine ⟨[], a, ?_, rfl⟩
    rw [List.append_nil, hm]
    refine inv_quiet h ?_ hf
    rw [h1]; cases b <;> rfl
  | @setPtr t n p b todo h1 =>
    have hp := h.proper t; have hf := h.fine t
    rw [h1] at hp hf
    refine ⟨[.lin t (.setParent n p) .done], put a n p, inv_event h rfl (.lin h.replay ⟨rfl, ?_, fun x hx => ?_⟩) (.lin hp) (fun x => ?_) (fun x => ?_) hf, rfl⟩
    · simp [put]
    · simp [put, hx]
    · unfold put
      split
      · next e => subst e; rw [h.mem]
      · exact h.mem x
    · unfold put
      split
      · next e => subst e; exact hf.1
      · exact h.kinds x
  | @wrote t n p todo h1 =>
    have hf := h.fine t
    rw [h1] at hf
    refine ⟨[], a, ?_, rfl⟩
    rw [List.append_nil]
    refine inv_quiet h ?_ hf.2
    rw [h1]; rfl
  | @reply t r todo h1 =>
    have hp := h.proper t; have hf := h.fine t
    rw [h1] at hp hf
    exact ⟨[.res t r], a, inv_event h rfl (.seen h.replay rfl) (.res hp) h.mem h.kinds hf, rfl⟩

/-- `Parent` and `SetParent`, called by any number of goroutines in any order on any nodes: unless a call makes a root of a node that is none or the reverse,
every call appears to happen at one moment between call and return, with the answer and the effect that it has alone. Missing: calls that do, for which the claim
does not hold, see `C105_violated_parent`. -/
theorem C105_parent_partial (m : Ref → Option Ref) (todo : Nat → List Call) (hn : ∀ t n p, .setParent n p ∈ todo t → p.isSome = (m n).isSome) {v : List (Ev Ans Call)} {z : Sys}
    (h : Steps (start m todo) v z) : ∃ m', Linearizes Does m v m' ∧ ∀ n, z.mem n = words (m' n) := by
  have key : ∃ es a, Inv (fun n => (m n).isSome) m z es a ∧ es.filter Ev.seen = v := by
    induction h with
    | refl =>
      refine ⟨[], m, ⟨.nil, fun _ => .nil, fun _ => rfl, fun _ => rfl, fun t c hc => ?_⟩, rfl⟩
      cases c with
      | parent n => trivial
      | setParent n p => exact hn t n p hc
    | step _ hs ih =>
      obtain ⟨es, a, h1, h2⟩ := ih
      obtain ⟨es', a', h3, h4⟩ := inv_step h1 hs
      exact ⟨_, a', h3, by rw [List.filter_append, h2, h4]⟩
  obtain ⟨es, a, h1, rfl⟩ := key
  exact ⟨a, ⟨es, rfl, fun t => ⟨_, h1.proper t⟩, h1.replay⟩, fun n => by rw [h1.mem, words, h1.kinds]⟩

/-- `Parent` beside the `SetParent` with which a node gets its first parent, as in `AddNode` (pkg/spaces/trees/tree.go:211-212), can return an interface that is not nil and has no
node in it. No order of the two calls explains the answer, and its methods crash. -/
theorem C105_violated_parent (n p : Ref) :
    let seen : List (Ev Ans Call) := [.inv 0 (.parent n), .inv 1 (.setParent n (some p)), .res 0 (.node ⟨true, none⟩), .res 1 .done]
    (∃ z, Steps (start (fun _ => none) fun t => if t = 0 then [.parent n] else if t = 1 then [.setParent n (some p)] else []) seen z ∧ Quiet z) ∧
      ¬ ∃ m', Linearizes Does (fun _ => none) seen m' := by
  refine ⟨?_, ?_⟩
  · have h1 : Steps _ ([] ++ _) _ := .step .refl (.callGet (s := start (fun _ => none) fun t => if t = 0 then [.parent n] else if t = 1 then [.setParent n (some p)] else [])
      (t := 0) (n := n) (todo := []) rfl)
    have h2 := h1.step (.callSet (t := 1) (n := n) (p := some p) (todo := []) rfl)
    have h3 := h2.step (.getPtr (t := 0) (n := n) (y := none) (todo := []) rfl)
    have h4 := h3.step (.setTyp (t := 1) (n := n) (p := some p) (b := false) (todo := []) rfl)
    have h5 := h4.step (.getTyp (t := 0) (n := n) (q := some none) (todo := []) rfl)
    have h6 := h5.step (.got (t := 0) (n := n) (y := true) (q := none) (todo := []) (by
      rw [set_at]
      show Thread.getting n (some (Words.typ (put _ n _ n))) _ _ = _
      simp [put]))
    have h7 := h6.step (.reply (t := 0) (a := .node ⟨true, none⟩) (todo := []) rfl)
    have h8 := h7.step (.setPtr (t := 1) (n := n) (p := some p) (b := true) (todo := []) rfl)
    have h9 := h8.step (.wrote (t := 1) (n := n) (p := some p) (todo := []) rfl)
    have h10 := h9.step (.reply (t := 1) (a := .done) (todo := []) rfl)
    refine ⟨_, h10, fun t => ?_⟩
    by_cases e1 : t = 1
    · subst e1; exact ⟨[], rfl⟩
    · by_cases e0 : t = 0
      · subst e0; exact ⟨[], rfl⟩
      · refine ⟨[], ?_⟩
        simp [Sys.set, start, e0, e1]
  · rintro ⟨m', es, h1, h2, h3⟩
    obtain ⟨st, hp⟩ := h2 0
    have hmem : (.res 0 (.node ⟨true, none⟩) : Ev Ans Call) ∈ es := by
      have : (.res 0 (.node ⟨true, none⟩) : Ev Ans Call) ∈ es.filter Ev.seen := by rw [h1]; simp
      exact (List.mem_filter.1 this).1
    obtain ⟨c, hc⟩ := (NodeLock.proper_lin hp).2.2.1 _ hmem
    obtain ⟨s1, s2, hd⟩ := NodeLock.replay_lin h3 hc
    cases c with
    | parent k =>
      have := hd.1
      simp only [words, Ans.node.injEq, Words.mk.injEq] at this
      rw [← this.2] at this
      cases this.1
    | setParent k q => exact nomatch hd.1

/-- `C105_parent_partial`: a node goes from one parent to another while somebody asks. -/
example : ∃ v z m', Steps (start (fun _ => some 0) fun t => if t = 0 then [.parent 5] else if t = 1 then [.setParent 5 (some 1)] else []) v z ∧
    v = [.inv 0 (.parent 5), .inv 1 (.setParent 5 (some 1)), .res 0 (.node ⟨true, some 0⟩)] ∧ Linearizes Does (fun _ => some 0) v m' := by
  have h1 : Steps _ ([] ++ _) _ := .step .refl (.callGet (s := start (fun _ => some 0) fun t => if t = 0 then [.parent 5] else if t = 1 then [.setParent 5 (some 1)] else [])
    (t := 0) (n := 5) (todo := []) rfl)
  have h2 := h1.step (.callSet (t := 1) (n := 5) (p := some 1) (todo := []) rfl)
  have h3 := h2.step (.getPtr (t := 0) (n := 5) (y := none) (todo := []) rfl)
  have h4 := h3.step (.setTyp (t := 1) (n := 5) (p := some 1) (b := false) (todo := []) rfl)
  have h5 := h4.step (.setPtr (t := 1) (n := 5) (p := some 1) (b := true) (todo := []) rfl)
  have h6 := h5.step (.getTyp (t := 0) (n := 5) (q := some (some 0)) (todo := []) rfl)
  have h7 := h6.step (.got (t := 0) (n := 5) (y := true) (q := some 0) (todo := []) rfl)
  have h8 := h7.step (.reply (t := 0) (a := .node ⟨true, some 0⟩) (todo := []) rfl)
  obtain ⟨m', hl, _⟩ := C105_parent_partial _ _ (fun t n p hp => by
    by_cases e0 : t = 0
    · subst e0; simp at hp
    · by_cases e1 : t = 1
      · subst e1; simp at hp; rw [hp.2]; rfl
      · simp [e0, e1] at hp) h8
  exact ⟨_, _, m', h8, rfl, hl⟩

end Parents
end Verif
