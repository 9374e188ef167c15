import Verif.World.Sound
/-!
# Programs that only read, and arguments that crash the program

A name that crashes the base32 decoder (C05) stops a command before it has changed anything, or, for a list of edits, after the
edits before it. So nothing that holds after commands with other names is lost by such a name.
-/
set_option autoImplicit false
namespace Verif
open M TS Json

/-- A program that makes no call which changes the disk. -/
inductive OnlyReads {α : Type} : Prog α → Prop where
  | ret (a : α) : OnlyReads (.ret a)
  | op {c : Cmd} {k : c.Ans → Prog α} : (∀ (E : Env) (f : Faults) d x d', Step E f c d x d' → d' = d) → (∀ x, OnlyReads (k x)) → OnlyReads (.op c k)

theorem onlyReads_exec {α : Type} {E : Env} {f : Faults} {p : Prog α} (hp : OnlyReads p) {d d' : Disk} {a : α} (h : Exec E f p d a d') : d' = d := by
  induction h with
  | ret => rfl
  | op hs _ ih => cases hp with | op h1 h2 => rw [ih (h2 _), h1 _ _ _ _ _ hs]

theorem onlyReads_stops {α : Type} {E : Env} {f : Faults} {p : Prog α} (hp : OnlyReads p) {d d' : Disk} (h : Stops E f p d d') : d' = d := by
  induction h with
  | here => rfl
  | op hs _ ih => cases hp with | op h1 h2 => rw [ih (h2 _), h1 _ _ _ _ _ hs]

theorem onlyReads_bind {α β : Type} {x : M α} {g : α → M β} (hx : OnlyReads x) (hg : ∀ a, OnlyReads (g a)) : OnlyReads (M.bind x g) := by
  unfold M.bind
  induction hx with
  | ret a =>
    simp only [Prog.bind]
    cases a with
    | ok a => exact hg a
    | _ => exact .ret _
  | op h1 _ ih => exact .op h1 ih

theorem onlyReads_lift {α ε : Type} (g : ε → CErr) (r : Res ε α) : OnlyReads (M.lift g r) := by
  cases r <;> exact .ret _

theorem onlyReads_ask {c : Cmd} (h : ∀ (E : Env) (f : Faults) d x d', Step E f c d x d' → d' = d) : OnlyReads (M.ask c) := .op h fun _ => .ret _

theorem onlyReads_getWorkspace (E : Env) (cwd path : Str) : OnlyReads (getWorkspace E cwd path) := by
  unfold getWorkspace
  refine onlyReads_bind (onlyReads_linkOf _) fun link => onlyReads_bind (onlyReads_lift _ _) fun m => onlyReads_bind (onlyReads_loadInfo _) fun info => onlyReads_bind (onlyReads_lift _ _) fun wid =>
    onlyReads_bind (onlyReads_lift _ _) fun sid => onlyReads_bind (onlyReads_ask fun _ _ _ _ _ h => h.1) fun r => onlyReads_bind (onlyReads_lift _ _) fun s =>
    onlyReads_bind (onlyReads_lift _ _) fun h => ?_
  split <;> exact .ret _
where
  onlyReads_linkOf (p : Str) : OnlyReads (linkOf p) := by
    unfold linkOf
    refine onlyReads_bind (onlyReads_ask fun _ _ _ _ _ h => h.1) fun b => ?_
    split
    · refine onlyReads_bind (onlyReads_ask fun _ _ _ _ _ h => h.1) fun r => ?_
      split <;> exact .ret _
    · exact .ret _
  onlyReads_loadInfo (m : UID) : OnlyReads (loadInfo m) := by
    unfold loadInfo
    refine onlyReads_bind (onlyReads_ask fun _ _ _ _ _ h => h.1) fun r => ?_
    split
    · exact onlyReads_lift _ _
    · exact .ret _

/-! ## Names that crash the search -/

section
variable {E : Env} {f : Faults}

/-- A run of two programs in a row: the first one succeeds and the second one runs, or the first one ends the run, and then it does
so whatever the second one is. -/
theorem exec_split {α β : Type} {x : M α} {k : α → M β} {d d' : Disk} {r : Res CErr β} (h : Exec E f (M.bind x k) d r d') :
    (∃ a d1, Exec E f x d (.ok a) d1 ∧ Exec E f (k a) d1 r d') ∨
    (∀ b, r ≠ .ok b) ∧ (∀ e, r = .err e → Exec E f x d (.err e) d') ∧
      (∃ r0, Exec E f x d r0 d' ∧ ∀ a, r0 ≠ .ok a) ∧ ∀ (γ : Type) (k' : α → M γ), ∃ r' : Res CErr γ, Exec E f (M.bind x k') d r' d' := by
  obtain ⟨a, d1, h1, h2⟩ := exec_bind h
  cases a with
  | ok a => exact Or.inl ⟨a, d1, h1, h2⟩
  | err e =>
    cases h2
    exact Or.inr ⟨nofun, (fun e' he => by cases he; exact h1), ⟨_, h1, nofun⟩, fun γ k' => ⟨.err e, exec_trans h1 (.ret _ _)⟩⟩
  | panic =>
    cases h2
    exact Or.inr ⟨nofun, nofun, ⟨_, h1, nofun⟩, fun γ k' => ⟨.panic, exec_trans h1 (.ret _ _)⟩⟩
  | diverge =>
    cases h2
    exact Or.inr ⟨nofun, nofun, ⟨_, h1, nofun⟩, fun γ k' => ⟨.diverge, exec_trans h1 (.ret _ _)⟩⟩

theorem wsSearch_odd {ε : Type} {s : TS} {w : Ws} {key : Str} (hk : ¬ PlainKey key) : (Ws.search s w key : Res ε (Option (Option Ref × KeyType))) = .panic := by
  have hne : key ≠ Ws.headTag := by rintro rfl; exact hk (plainKey_length (by decide))
  unfold Ws.search TS.search
  rw [if_neg hne, searchID_odd hk]
  rfl

/-- A checkout of such a name changes nothing and does not succeed. -/
theorem checkout_odd {cwd key : Str} (hk : ¬ PlainKey key) {d d' : Disk} {r : Res CErr (OpenWs × OpenWs)} (he : Exec E f (checkoutCmd E cwd key) d r d') :
    d' = d ∧ ∀ x, r ≠ .ok x := by
  rcases exec_split he with ⟨w, d1, h1, h2⟩ | ⟨hr, _, ⟨r0, h1, _⟩, _⟩
  · have e := onlyReads_exec (onlyReads_getWorkspace E cwd (lit ".")) h1
    subst e
    have hp : checkoutP E w key = Prog.ret .panic := by
      unfold checkoutP
      rw [wsSearch_odd hk]
      rfl
    rcases exec_split h2 with ⟨b, d2, h3, h4⟩ | ⟨hr, _, ⟨r0, h3, _⟩, _⟩
    · rw [hp] at h3; cases h3
    · rw [hp] at h3; cases h3
      exact ⟨rfl, hr⟩
  · exact ⟨onlyReads_exec (onlyReads_getWorkspace E cwd (lit ".")) h1, hr⟩

theorem plain_of_checkout {cwd key : Str} {d d' : Disk} {x : OpenWs × OpenWs} (he : Exec E f (checkoutCmd E cwd key) d (.ok x) d') : PlainKey key :=
  Classical.byContradiction fun hk => (checkout_odd hk he).2 x rfl

theorem edit_odd {s : TS} {w : Ws} {e : Edit} (he : ¬ e.Plain) : e.apply s w = .panic := by
  cases e with
  | addBranch name ref force => simp only [Edit.apply, Ws.addBranch, wsSearch_odd (show ¬ PlainKey ref from he)]; rfl
  | addTag name ref force => simp only [Edit.apply, Ws.addTag, wsSearch_odd (show ¬ PlainKey ref from he)]; rfl
  | deleteBranch name global => exact absurd trivial he
  | deleteTag name => exact absurd trivial he

theorem editAll_odd {dir : Str} {w : Ws} {e : Edit} {es : List Edit} {s : TS} (he : ¬ e.Plain) : editAll dir w (e :: es) s = Prog.ret .panic := by
  rw [editAll, edit_odd he]
  rfl

/-- A list of edits leaves a disk that some of its edits without such names, from the first one on, leave. -/
theorem editAll_prefix {dir : Str} {w : Ws} : ∀ {es : List Edit} {s : TS} {d d' : Disk} {r : Res CErr TS}, Exec E f (editAll dir w es s) d r d' →
    ∃ es1 r1, es1 <+: es ∧ (∀ e ∈ es1, e.Plain) ∧ Exec E f (editAll dir w es1 s) d r1 d'
  | [], s, d, d', r, h => ⟨[], r, List.prefix_refl _, nofun, h⟩
  | e :: es, s, d, d', r, h => by
    by_cases hp : e.Plain
    · have one : ∀ x ∈ [e], Edit.Plain x := fun x hx => by simp only [List.mem_singleton] at hx; exact hx ▸ hp
      rw [editAll] at h
      rcases exec_split h with ⟨s1, d1, h1, h2⟩ | ⟨_, _, _, h1⟩
      · rcases exec_split h2 with ⟨x, d2, h3, h4⟩ | ⟨_, _, _, h3⟩
        · obtain ⟨es1, r1, g1, g2, g3⟩ := editAll_prefix h4
          refine ⟨e :: es1, r1, ?_, ?_, ?_⟩
          · obtain ⟨t, rfl⟩ := g1; exact ⟨t, rfl⟩
          · intro x hx
            rcases List.mem_cons.1 hx with rfl | hx
            · exact hp
            · exact g2 x hx
          · rw [editAll]
            exact exec_trans h1 (exec_trans h3 g3)
        · obtain ⟨r1, h3⟩ := h3 TS fun _ => editAll dir w [] s1
          refine ⟨[e], r1, ⟨es, rfl⟩, one, ?_⟩
          rw [editAll]
          exact exec_trans h1 h3
      · obtain ⟨r1, h1⟩ := h1 TS fun s' => M.bind (spaceSave dir s') fun _ => editAll dir w [] s'
        refine ⟨[e], r1, ⟨es, rfl⟩, one, ?_⟩
        rw [editAll]
        exact h1
    · rw [editAll_odd hp] at h
      cases h
      exact ⟨[], .ok s, List.nil_prefix, nofun, .ret _ _⟩

theorem edit_prefix {cwd : Str} {es : List Edit} {d d' : Disk} {r : Res CErr TS} (he : Exec E f (editCmd E cwd es) d r d') :
    ∃ es1 r1, es1 <+: es ∧ (∀ e ∈ es1, e.Plain) ∧ Exec E f (editCmd E cwd es1) d r1 d' := by
  rcases exec_split he with ⟨w, d1, h1, h2⟩ | ⟨_, _, _, h1⟩
  · obtain ⟨es1, r1, g1, g2, g3⟩ := editAll_prefix h2
    exact ⟨es1, r1, g1, g2, exec_trans h1 g3⟩
  · obtain ⟨r1, h1⟩ := h1 TS fun w => editAll w.spaceDir w.ws [] w.tree
    exact ⟨[], r1, List.nil_prefix, nofun, h1⟩

theorem editAll_plain {dir : Str} {w : Ws} : ∀ {es : List Edit} {s s' : TS} {d d' : Disk}, Exec E f (editAll dir w es s) d (.ok s') d' → ∀ e ∈ es, e.Plain
  | [], _, _, _, _, _ => nofun
  | e :: es, s, s', d, d', h => by
    have hp : e.Plain := Classical.byContradiction fun hp => by
      rw [editAll_odd hp] at h
      cases h
    rw [editAll] at h
    rcases exec_split h with ⟨s1, d1, h1, h2⟩ | ⟨h1, _⟩
    · rcases exec_split h2 with ⟨x, d2, h3, h4⟩ | ⟨h3, _⟩
      · intro x hx
        rcases List.mem_cons.1 hx with rfl | hx
        · exact hp
        · exact editAll_plain h4 x hx
      · exact absurd rfl (h3 s')
    · exact absurd rfl (h1 s')

/-- If all edits succeed, there was no such name. -/
theorem plain_of_edit {cwd : Str} {es : List Edit} {d d' : Disk} {s : TS} (he : Exec E f (editCmd E cwd es) d (.ok s) d') : ∀ e ∈ es, e.Plain := by
  rcases exec_split he with ⟨w, d1, h1, h2⟩ | ⟨h1, _⟩
  · exact editAll_plain h2
  · exact absurd rfl (h1 s)

/-- If the only edit is refused with an error, there was no such name, or the workspace could not be opened. -/
theorem plain_of_refused {cwd : Str} {e : Edit} {d d' : Disk} {err : CErr} (he : Exec E f (editCmd E cwd [e]) d (.err err) d') :
    e.Plain ∨ Exec E f (getWorkspace E cwd (lit ".")) d (.err err) d' := by
  by_cases hp : e.Plain
  · exact Or.inl hp
  rcases exec_split he with ⟨w, d1, h1, h2⟩ | ⟨_, h1, _⟩
  · rw [editAll_odd hp] at h2; cases h2
  · exact Or.inr (h1 err rfl)

theorem stops_trans {α β : Type} {x : M α} {k : α → M β} {d d1 d2 : Disk} {a : α} (h : Exec E f x d (.ok a) d1) (h' : Stops E f (k a) d1 d2) :
    Stops E f (M.bind x k) d d2 := by
  generalize hr : (Res.ok a : Res CErr α) = r at h
  induction h with
  | ret r d => subst hr; exact h'
  | op hs _ ih => exact .op hs (ih h' hr)

theorem stops_bind {α β : Type} {x : M α} {k : α → M β} {d d2 : Disk} (h : Stops E f x d d2) : Stops E f (M.bind x k) d d2 := by
  induction h with
  | here p d => exact .here _ _
  | op hs _ ih => exact .op hs ih

theorem stops_split {α β : Type} {x : M α} {k : α → M β} {d d' : Disk} (h : Stops E f (M.bind x k) d d') :
    (∃ a d1, Exec E f x d (.ok a) d1 ∧ Stops E f (k a) d1 d') ∨ Stops E f x d d' := by
  unfold M.bind at h
  induction x generalizing d with
  | ret a =>
    cases a with
    | ok a => exact Or.inl ⟨a, d, .ret _ _, h⟩
    | _ => cases h; exact Or.inr (.here _ _)
  | op c k' ih =>
    cases h with
    | here => exact Or.inr (.here _ _)
    | op hs h =>
      rcases ih _ h with ⟨a, d1, h1, h2⟩ | h1
      · exact Or.inl ⟨a, d1, .op hs h1, h2⟩
      · exact Or.inr (.op hs h1)

/-- Killed at any moment, a checkout of such a name has changed nothing. -/
theorem checkout_odd_stops {cwd key : Str} (hk : ¬ PlainKey key) {d d' : Disk} (h : Stops E f (checkoutCmd E cwd key) d d') : d' = d := by
  rcases stops_split h with ⟨w, d1, h1, h2⟩ | h1
  · have e := onlyReads_exec (onlyReads_getWorkspace E cwd (lit ".")) h1
    subst e
    have hp : checkoutP E w key = Prog.ret .panic := by
      unfold checkoutP
      rw [wsSearch_odd hk]
      rfl
    rcases stops_split h2 with ⟨b, d2, h3, h4⟩ | h3
    · rw [hp] at h3; cases h3
    · rw [hp] at h3; cases h3; rfl
  · exact onlyReads_stops (onlyReads_getWorkspace E cwd (lit ".")) h1

theorem editAll_prefix_stops {dir : Str} {w : Ws} : ∀ {es : List Edit} {s : TS} {d d' : Disk}, Stops E f (editAll dir w es s) d d' →
    ∃ es1, es1 <+: es ∧ (∀ e ∈ es1, e.Plain) ∧ Stops E f (editAll dir w es1 s) d d'
  | [], s, d, d', h => ⟨[], List.prefix_refl _, nofun, h⟩
  | e :: es, s, d, d', h => by
    by_cases hp : e.Plain
    · have one : ∀ x ∈ [e], Edit.Plain x := fun x hx => by simp only [List.mem_singleton] at hx; exact hx ▸ hp
      rw [editAll] at h
      rcases stops_split h with ⟨s1, d1, h1, h2⟩ | h1
      · rcases stops_split h2 with ⟨x, d2, h3, h4⟩ | h3
        · obtain ⟨es1, g1, g2, g3⟩ := editAll_prefix_stops h4
          refine ⟨e :: es1, ?_, ?_, ?_⟩
          · obtain ⟨t, rfl⟩ := g1; exact ⟨t, rfl⟩
          · intro x hx
            rcases List.mem_cons.1 hx with rfl | hx
            · exact hp
            · exact g2 x hx
          · rw [editAll]
            exact stops_trans h1 (stops_trans h3 g3)
        · refine ⟨[e], ⟨es, rfl⟩, one, ?_⟩
          rw [editAll]
          exact stops_trans h1 (stops_bind h3)
      · refine ⟨[e], ⟨es, rfl⟩, one, ?_⟩
        rw [editAll]
        exact stops_bind h1
    · rw [editAll_odd hp] at h
      cases h
      exact ⟨[], List.nil_prefix, nofun, .here _ _⟩

theorem edit_prefix_stops {cwd : Str} {es : List Edit} {d d' : Disk} (h : Stops E f (editCmd E cwd es) d d') :
    ∃ es1, es1 <+: es ∧ (∀ e ∈ es1, e.Plain) ∧ Stops E f (editCmd E cwd es1) d d' := by
  rcases stops_split h with ⟨w, d1, h1, h2⟩ | h1
  · obtain ⟨es1, g1, g2, g3⟩ := editAll_prefix_stops h2
    exact ⟨es1, g1, g2, stops_trans h1 g3⟩
  · exact ⟨[], List.nil_prefix, nofun, stops_bind h1⟩

/-! ## Links that crash the program -/

/-- On a sound disk a path opens, or the command does nothing. -/
theorem opens_or_not {d d' : Disk} {g : Str → Option TS} (h : Steady E d g) {cwd path : Str} (hout : E.Outside (Path.abs cwd path)) {r : Res CErr OpenWs}
    (he : Exec E f (getWorkspace E cwd path) d r d') :
    d' = d ∧ ((∃ w, r = .ok w ∧ ∃ u p, Opens E d cwd path w u p ∧ d.mdir w.mount.id.base32 ≠ none ∧ ∃ T, g w.spaceDir = some T ∧ T.abs.Shallow ∧ ComesBack T.abs w.tree.abs) ∨
      (∀ w, r ≠ .ok w) ∧ ∀ e, r = .err e → e.early = true) := by
  by_cases hpl : ∀ t, d.user (Path.abs cwd path) = .link t → (∀ m, mountIDOf E.root cwd path (some t) ≠ .ok m) → ∃ e, mountIDOf E.root cwd path (some t) = .err e
  · have := wpm_exec (opens_of_steady' h hout hpl) he
    cases r with
    | ok w => exact ⟨this.1, Or.inl ⟨w, rfl, this.2⟩⟩
    | err e => exact ⟨this.1, Or.inr ⟨nofun, fun e' he' => by cases he'; exact this.2⟩⟩
    | panic => exact this.elim
    | diverge => exact this.elim
  · refine ⟨onlyReads_exec (onlyReads_getWorkspace E cwd path) he, Or.inr ?_⟩
    simp only [Classical.not_forall] at hpl
    obtain ⟨t, ht, h1, h2⟩ := hpl
    unfold getWorkspace at he
    rcases exec_split he with ⟨l, d1, g1, g2⟩ | ⟨hr, g1, _⟩
    · obtain ⟨rfl, g3⟩ := wpm_exec (linkOf_wp (off_of_outside hout)) g1
      have hl : l = none ∨ l = some t := by
        rcases g3 with rfl | ⟨_, rfl⟩
        · right; rw [ht]; rfl
        · exact Or.inl rfl
      rcases hl with rfl | rfl
      · obtain ⟨e, he⟩ := leads_outside hout
        rw [he] at g2
        cases g2
        exact ⟨nofun, fun e h => by cases h; rfl⟩
      · cases hm : mountIDOf E.root cwd path (some t) with
        | ok m => exact absurd hm (h1 m)
        | err e => exact absurd ⟨e, hm⟩ h2
        | panic => rw [hm] at g2; cases g2; exact ⟨nofun, nofun⟩
        | diverge => rw [hm] at g2; cases g2; exact ⟨nofun, nofun⟩
    · exact ⟨hr, fun e h => (wpm_exec (linkOf_wp (off_of_outside hout)) (g1 e h)).2.1⟩

end
end Verif
