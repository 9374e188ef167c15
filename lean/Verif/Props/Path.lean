import Verif.Fs.Path
/-!
# C44: which mount a path leads to
-/
set_option autoImplicit false
namespace Verif
namespace Path

/-- A component that names something: not empty, not `.` or `..`, without slash. -/
def Plain (c : Str) : Prop := c ≠ [] ∧ c ≠ lit "." ∧ c ≠ lit ".." ∧ slash ∉ c

theorem split_ne_nil (s : Str) : split s ≠ [] := by
  cases s with
  | nil => simp [split]
  | cons c s => unfold split; split <;> (try split) <;> simp

theorem split_append (a b : Str) : split (a ++ slash :: b) = split a ++ split b := by
  induction a with
  | nil => simp [split]
  | cons c a ih =>
    simp only [List.cons_append]
    rw [split, split]
    split
    · rw [ih]; rfl
    · rw [ih]
      cases h : split a with
      | nil => exact absurd h (split_ne_nil a)
      | cons p ps => rfl

theorem split_noslash {c : Str} (h : slash ∉ c) : split c = [c] := by
  induction c with
  | nil => rfl
  | cons x c ih =>
    simp only [List.mem_cons, not_or] at h
    rw [split, if_neg (Ne.symm h.1), ih h.2]

theorem split_join {l : List Str} (hl : l ≠ []) (h : ∀ c ∈ l, slash ∉ c) : split (join l) = l := by
  induction l with
  | nil => exact absurd rfl hl
  | cons a l ih =>
    cases l with
    | nil => exact split_noslash (h a (by simp))
    | cons b l =>
      rw [join, split_append, ih (by simp) (fun c hc => h c (List.mem_cons_of_mem _ hc)), split_noslash (h a (by simp))]
      · rfl
      · simp

theorem mem_split {s c : Str} (h : c ∈ split s) : slash ∉ c := by
  induction s generalizing c with
  | nil => simp [split] at h; subst h; simp
  | cons x s ih =>
    rw [split] at h
    split at h
    · rcases List.mem_cons.1 h with rfl | h
      · simp
      · exact ih h
    · rename_i hx
      cases hs : split s with
      | nil => exact absurd hs (split_ne_nil s)
      | cons p ps =>
        rw [hs] at h ih
        simp only at h
        rcases List.mem_cons.1 h with rfl | h
        · simp only [List.mem_cons, not_or]
          exact ⟨Ne.symm hx, ih (by simp)⟩
        · exact ih (List.mem_cons_of_mem _ h)

theorem push_plain {stack : List Str} {c : Str} (hs : ∀ x ∈ stack, Plain x) (hc : slash ∉ c) : ∀ x ∈ push stack c, Plain x := by
  intro x hx
  unfold push at hx
  split at hx
  · exact hs x hx
  · rename_i h1
    rw [not_or] at h1
    split at hx
    · exact hs x (List.mem_of_mem_tail hx)
    · rename_i h2
      rcases List.mem_cons.1 hx with rfl | hx
      · exact ⟨h1.1, h1.2, h2, hc⟩
      · exact hs x hx

theorem fold_plain : ∀ {l stack : List Str}, (∀ x ∈ stack, Plain x) → (∀ c ∈ l, slash ∉ c) →
    ∀ x ∈ l.foldl push stack, Plain x
  | [], _, hs, _ => hs
  | c :: l, stack, hs, hl => by
    rw [List.foldl_cons]
    exact fold_plain (push_plain hs (hl c List.mem_cons_self)) fun d hd => hl d (List.mem_cons_of_mem _ hd)

/-- Cleaning leaves only components that name something. -/
theorem comps_plain (p : Str) : ∀ c ∈ comps p, Plain c := by
  intro c hc
  exact fold_plain (by simp) (fun d hd => mem_split hd) c (List.mem_reverse.1 hc)

theorem fold_push_plain : ∀ {l stack : List Str}, (∀ c ∈ l, Plain c) → l.foldl push stack = l.reverse ++ stack
  | [], _, _ => rfl
  | c :: l, stack, h => by
    have hc := h c (by simp)
    rw [List.foldl_cons, fold_push_plain fun d hd => h d (List.mem_cons_of_mem _ hd)]
    have : push stack c = c :: stack := by
      unfold push
      rw [if_neg (by rw [not_or]; exact ⟨hc.1, hc.2.1⟩), if_neg hc.2.2.1]
    rw [this]
    simp

/-- A path written with such components denotes them. -/
theorem comps_render {l : List Str} (h : ∀ c ∈ l, Plain c) : comps (slash :: join l) = l := by
  unfold comps
  cases l with
  | nil => rfl
  | cons a l =>
    have : split (slash :: join (a :: l)) = [] :: (a :: l) := by
      have := split_append [] (join (a :: l))
      rw [List.nil_append] at this
      rw [this, split_join (by simp) (fun c hc => (h c hc).2.2.2)]
      rfl
    rw [this, List.foldl_cons]
    have hp : push [] [] = [] := by simp [push]
    rw [hp, fold_push_plain h]
    simp

/-- Cleaning a clean path changes nothing. -/
theorem comps_clean (p : Str) : comps (clean p) = comps p := comps_render (comps_plain p)

/-- How a path continues another one: component by component, `.` and empty ones skipped, `..` going up. -/
theorem comps_append (p q : Str) : comps (p ++ slash :: q) = ((split q).foldl push (comps p).reverse).reverse := by
  unfold comps
  rw [split_append, List.foldl_append, List.reverse_reverse]

theorem relComps_below (b t : List Str) (ht : t ≠ []) : relComps b (b ++ t) = t := by
  induction b with
  | nil => cases t with
    | nil => exact absurd rfl ht
    | cons a t => rfl
  | cons a b ih => simp only [List.cons_append]; rw [relComps, if_pos rfl, ih]

/-- What `relComps` starts with. -/
theorem relComps_head (b t : List Str) :
    (∃ x rest, t = b ++ x :: rest ∧ relComps b t = x :: rest) ∨
    ((∀ x rest, t ≠ b ++ x :: rest) ∧ ∃ rest, relComps b t = lit "." :: rest ∨ relComps b t = lit ".." :: rest) := by
  induction b generalizing t with
  | nil =>
    cases t with
    | nil => exact Or.inr ⟨by simp, [], Or.inl rfl⟩
    | cons a t => exact Or.inl ⟨a, t, rfl, rfl⟩
  | cons a b ih =>
    cases t with
    | nil => exact Or.inr ⟨by simp, _, Or.inr rfl⟩
    | cons c t =>
      rw [relComps]
      by_cases h : a = c
      · subst h
        rw [if_pos rfl]
        rcases ih t with ⟨x, rest, h1, h2⟩ | ⟨h1, h2⟩
        · exact Or.inl ⟨x, rest, by rw [h1]; rfl, h2⟩
        · refine Or.inr ⟨?_, h2⟩
          intro x rest he
          rw [List.cons_append] at he
          exact h1 x rest (List.cons.inj he).2
      · rw [if_neg h]
        refine Or.inr ⟨?_, _, Or.inr rfl⟩
        intro x rest he
        rw [List.cons_append] at he
        exact h (List.cons.inj he).1.symm

theorem split_join_head {l : List Str} (hl : l ≠ []) (h : ∀ c ∈ l, slash ∉ c) : (split (join l)).headD [] = l.headD [] := by
  rw [split_join hl h]

theorem relComps_noslash {b t : List Str} (ht : ∀ c ∈ t, Plain c) : ∀ c ∈ relComps b t, slash ∉ c := by
  induction b generalizing t with
  | nil =>
    intro c hc
    cases t with
    | nil =>
      rw [relComps, List.mem_singleton] at hc
      subst hc; decide
    | cons a t => exact (ht c hc).2.2.2
  | cons a b ih =>
    intro c hc
    cases t with
    | nil =>
      rw [relComps] at hc
      obtain ⟨_, _, rfl⟩ := List.mem_map.1 hc
      decide
    | cons d t =>
      rw [relComps] at hc
      split at hc
      · exact ih (fun c hc => ht c (List.mem_cons_of_mem _ hc)) c hc
      · rcases List.mem_append.1 hc with hc | hc
        · obtain ⟨_, _, rfl⟩ := List.mem_map.1 hc
          decide
        · exact (ht c hc).2.2.2

theorem relComps_ne_nil (b t : List Str) : relComps b t ≠ [] := by
  rcases relComps_head b t with ⟨x, rest, _, h⟩ | ⟨_, rest, h | h⟩ <;> rw [h] <;> simp

theorem comps_abs (cwd p : Str) : comps (Path.abs cwd p) = if isAbs p then comps p else comps (cwd ++ slash :: p) := by
  unfold Path.abs
  split <;> exact comps_clean _

end Path

open Path

/-- The path that decides: the link target if the path is a link, else the path itself. -/
def targetOf (cwd path : Str) (link : Option Str) : List Str :=
  match link with
  | some t => if [slash] <+: t then comps t else comps (cwd ++ slash :: t)
  | none => if [slash] <+: path then comps path else comps (cwd ++ slash :: path)

theorem isAbs_iff (t : Str) : isAbs t = true ↔ [slash] <+: t := by
  cases t with
  | nil => simp [isAbs]
  | cons c t => simp [isAbs, eq_comm]

theorem targetOf_none (cwd path : Str) : targetOf cwd path none = comps (Path.abs cwd path) := by
  simp only [targetOf, comps_abs, isAbs_iff]

theorem mounts_comps (root : Str) : comps (root ++ lit "/mounts") = comps root ++ [lit "mounts"] := by
  have h := comps_append root (lit "mounts")
  have h2 : split (lit "mounts") = [lit "mounts"] := by decide
  have h3 : ∀ st, push st (lit "mounts") = lit "mounts" :: st := by
    intro st
    unfold push
    rw [if_neg (by decide), if_neg (by decide)]
  rw [h2, List.foldl_cons, List.foldl_nil, h3, List.reverse_cons, List.reverse_reverse] at h
  exact h

theorem mountIDOf_eq (root cwd path : Str) (link : Option Str) :
    mountIDOf root cwd path link = UID.decodeBase32 ((relComps (comps root ++ [lit "mounts"]) (targetOf cwd path link)).headD []) := by
  unfold mountIDOf
  simp only
  have ht : comps (Path.abs cwd (link.getD (Path.abs cwd path))) = targetOf cwd path link := by
    rw [comps_abs]
    unfold targetOf
    cases link with
    | some t => simp only [Option.getD_some, isAbs_iff]
    | none =>
      simp only [Option.getD_none]
      have hab : isAbs (Path.abs cwd path) = true := by unfold Path.abs; split <;> rfl
      rw [if_pos hab, comps_abs]
      simp only [isAbs_iff]
  have hpl : ∀ c ∈ targetOf cwd path link, Plain c := by rw [← ht]; exact comps_plain _
  unfold rel
  rw [comps_clean, mounts_comps, ht, split_join_head (relComps_ne_nil _ _) (relComps_noslash hpl)]

/-- **C44.** A path leads to the mount `m` exactly if, after cleaning, the link target (or the path itself if it is not a
link) lies at or below `<data root>/mounts/<name>` where `name` spells `m`. -/
theorem C44_leads_to_iff (root cwd path : Str) (link : Option Str) (m : UID) :
    mountIDOf root cwd path link = .ok m ↔
      ∃ name rest, targetOf cwd path link = comps root ++ lit "mounts" :: name :: rest ∧
        name.length = 26 ∧ (∀ c ∈ name, c ∈ base32Chars) ∧ m.base32 = name.take 25 ++ [canonLast (name.getD 25 0)] := by
  rw [mountIDOf_eq]
  rcases relComps_head (comps root ++ [lit "mounts"]) (targetOf cwd path link) with ⟨x, rest, h1, h2⟩ | ⟨h1, rest, h2⟩
  · rw [h2, List.headD_cons, C05_base32_decode_iff]
    constructor
    · intro h; exact ⟨x, rest, by rw [h1]; simp, h⟩
    · rintro ⟨name, rest', h3, h4⟩
      rw [h1] at h3
      simp only [List.append_assoc, List.singleton_append] at h3
      have := List.append_cancel_left h3
      simp only [List.cons.injEq, true_and] at this
      rw [this.1]; exact h4
  · constructor
    · intro h
      exfalso
      rcases h2 with h2 | h2 <;> rw [h2, List.headD_cons, C05_base32_decode_iff] at h <;> exact absurd h.1 (by decide)
    · rintro ⟨name, rest', h3, _⟩
      exact absurd (by rw [h3]; simp) (h1 name rest')

/-- **C44.** The mount directory of `m`, its `merged` directory and anything below lead to `m`, whether given directly or
through a link, whatever the working directory. -/
theorem C44_mount_path (root cwd path : Str) (m : UID) (rest : List Str) (hr : ∀ c ∈ rest, Plain c) :
    let target := slash :: join (comps root ++ lit "mounts" :: m.base32 :: rest)
    mountIDOf root cwd path (some target) = .ok m ∧ mountIDOf root cwd target none = .ok m := by
  intro target
  have hb := (C05_base32_decode_iff m.base32 m).1 (C02_base32_roundtrip m)
  have hpl : ∀ c ∈ comps root ++ lit "mounts" :: m.base32 :: rest, Plain c := by
    intro c hc
    rcases List.mem_append.1 hc with hc | hc
    · exact comps_plain root c hc
    · rcases List.mem_cons.1 hc with rfl | hc
      · exact ⟨by decide, by decide, by decide, by decide⟩
      · rcases List.mem_cons.1 hc with rfl | hc
        · have hl := C02_base32_length m
          refine ⟨?_, ?_, ?_, ?_⟩
          · intro h; rw [h] at hl; cases hl
          · intro h; rw [h] at hl; cases hl
          · intro h; rw [h] at hl; cases hl
          · intro h; exact absurd (hb.2.1 _ h) (by decide)
        · exact hr c hc
  have hc : comps target = comps root ++ lit "mounts" :: m.base32 :: rest := comps_render hpl
  constructor
  · rw [C44_leads_to_iff]
    refine ⟨m.base32, rest, ?_, hb⟩
    rw [← hc]; rfl
  · rw [C44_leads_to_iff]
    refine ⟨m.base32, rest, ?_, hb⟩
    rw [← hc]; rfl

/-- **C44.** Every other path is an error, provided that none of its components crashes the decoder (C05). -/
theorem C44_otherwise_error (root cwd path : Str) (link : Option Str) (hp : ∀ c ∈ targetOf cwd path link, UID.decodeBase32 c ≠ .panic)
    (hno : ∀ m, mountIDOf root cwd path link ≠ .ok m) : ∃ e, mountIDOf root cwd path link = .err e := by
  rw [mountIDOf_eq] at hno ⊢
  have hx : UID.decodeBase32 ((relComps (comps root ++ [lit "mounts"]) (targetOf cwd path link)).headD []) ≠ .panic := by
    rcases relComps_head (comps root ++ [lit "mounts"]) (targetOf cwd path link) with ⟨x, rest, h1, h2⟩ | ⟨h1, rest, h2⟩
    · rw [h2, List.headD_cons]
      exact hp x (by rw [h1]; simp)
    · rcases h2 with h2 | h2 <;> rw [h2, List.headD_cons] <;> decide
  generalize (relComps (comps root ++ [lit "mounts"]) (targetOf cwd path link)).headD [] = x at hno hx
  cases hd : UID.decodeBase32 x with
  | ok m => exact absurd hd (hno m)
  | err e => exact ⟨e, rfl⟩
  | panic =>
    exact absurd hd hx
  | diverge =>
    exfalso
    unfold UID.decodeBase32 UID.ofSlice at hd
    split at hd
    · cases hd
    · split at hd
      · cases hd
      · split at hd <;> cases hd

/-- **C44.** Only the cleaned path counts: two spellings with the same components lead to the same mount. -/
theorem C44_lexical (root cwd path path' : Str) (link link' : Option Str)
    (h : targetOf cwd path link = targetOf cwd path' link') : mountIDOf root cwd path link = mountIDOf root cwd path' link' := by
  rw [mountIDOf_eq, mountIDOf_eq, h]

/-- **C44 (violated).** The command crashes on exactly the paths that lie at or below `<data root>/mounts/<name>` where `name` crashes the
decoder (`C05_violated_exactly` lists those names). -/
theorem C44_violated_exactly (root cwd path : Str) (link : Option Str) :
    mountIDOf root cwd path link = .panic ↔
      ∃ name rest, targetOf cwd path link = comps root ++ lit "mounts" :: name :: rest ∧ UID.decodeBase32 name = .panic := by
  rw [mountIDOf_eq]
  rcases relComps_head (comps root ++ [lit "mounts"]) (targetOf cwd path link) with ⟨x, rest, h1, h2⟩ | ⟨h1, rest, h2⟩
  · rw [h2, List.headD_cons]
    constructor
    · intro h; exact ⟨x, rest, by rw [h1]; simp, h⟩
    · rintro ⟨name, rest', h3, h4⟩
      rw [h1] at h3
      simp only [List.append_assoc, List.singleton_append] at h3
      have := List.append_cancel_left h3
      simp only [List.cons.injEq, true_and] at this
      rw [this.1]; exact h4
  · constructor
    · intro h
      exfalso
      rcases h2 with h2 | h2 <;> rw [h2, List.headD_cons] at h <;> exact absurd h (by decide)
    · rintro ⟨name, rest', h3, _⟩
      exact absurd (by rw [h3]; simp) (h1 name rest')

/-- **C44 is violated** in one corner: a path below the mounts directory whose component has a line feed crashes the
command instead of giving an error. -/
theorem C44_violated_newline :
    mountIDOf (lit "/d") (lit "/") (lit "/d/mounts/AAAQEAYEAUDAOCAJBIFQYDIOB\n") none = .panic := by decide

/-- A concrete data root, a link, a spelled-out path with dots, and a foreign path. -/
example : mountIDOf (lit "/var/lib/stackcrisp") (lit "/home/u/w") (lit ".")
      (some (lit "/var/lib/stackcrisp/mounts/" ++ UID.sample.base32 ++ lit "/merged")) = .ok UID.sample ∧
    mountIDOf (lit "/var/lib/stackcrisp") (lit "/var/lib") (lit "x/..//./stackcrisp/mounts/" ++ UID.sample.base32) none = .ok UID.sample ∧
    (mountIDOf (lit "/var/lib/stackcrisp") (lit "/home/u/w") (lit ".") none).isErr = true := by decide

end Verif
