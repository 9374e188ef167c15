import Verif.Space.Model
import Verif.Props.Dump
/-!
# C17–C19: the tree file

`SavesAs sh s bytes`: `bytes` is what `Space.Save` writes for the tree `s`. `spaceLoad` is `Space.Load`.
-/
set_option autoImplicit false
namespace Verif
open TS Json

theorem load_saved {s : TS} (h : Reach s) {sh : Bool} {bytes : Str} (hs : SavesAs sh s bytes) :
    (s.abs.Shallow → ∃ s', spaceLoad (.ok bytes) = .ok s' ∧ Reach s' ∧ ComesBack s.abs s'.abs) ∧
    (¬ s.abs.Shallow → spaceLoad (.ok bytes) = .err .unmarshal) := by
  obtain ⟨d, hd, rfl⟩ := hs
  have hw := wf_of_reach h
  have hsh := shallow_iff hw hd
  constructor
  · intro hS
    obtain ⟨s', h1, h2, h3⟩ := load_of_dumps (wf_san hw) (dumps_san hw hd)
    refine ⟨s', ?_, h2, by rw [h3]; exact comesBack_san hw⟩
    simp only [spaceLoad, unmarshal_marshal, if_pos (hsh.2 hS), h1, Res.mapErr]
  · intro hS
    simp only [spaceLoad, unmarshal_marshal, if_neg (fun hd => hS (hsh.1 hd))]

/-! ## C17 -/

/-- **C17 (texts in valid UTF-8).** Saving a tree and loading the file gives back the same tree: every node, parent,
annotation, data value, branch and tag, to the byte. `Shallow` is the nesting limit of C19. -/
theorem C17_save_load_partial {s : TS} (h : Reach s) (hu : s.abs.Utf8) (hS : s.abs.Shallow) {sh : Bool} {bytes : Str}
    (hs : SavesAs sh s bytes) : ∃ s', spaceLoad (.ok bytes) = .ok s' ∧ Reach s' ∧ s'.abs = s.abs := by
  obtain ⟨s', h1, h2, h3⟩ := (load_saved h hs).1 hS
  exact ⟨s', h1, h2, comesBack_utf8 h3 hu⟩

/-- **C17 (all texts).** What comes back for any tree: the same nodes, parents and root; each invalid byte of a name or text
is replaced by U+FFFD, and of names that become equal the last in byte order wins. -/
theorem C17_comes_back {s : TS} (h : Reach s) (hS : s.abs.Shallow) {sh : Bool} {bytes : Str}
    (hs : SavesAs sh s bytes) : ∃ s', spaceLoad (.ok bytes) = .ok s' ∧ Reach s' ∧ ComesBack s.abs s'.abs :=
  (load_saved h hs).1 hS

/-- **C17.** A name is valid exactly when it is a sequence of Unicode characters. -/
theorem C17_utf8_iff (s : Str) : validUtf8 s ↔ ∃ rs : List Nat, (∀ r ∈ rs, Scalar r) ∧ s = rs.flatMap encodeRune :=
  validUtf8_iff s

/-- Every tree has a saved form. -/
theorem C17_saves {s : TS} (h : Reach s) (sh : Bool) : ∃ bytes, SavesAs sh s bytes := by
  obtain ⟨d, hd⟩ := C15_dump_exists h
  exact ⟨_, d, hd, rfl⟩

theorem clean_scalar {c : Chunk} (h : ∃ a r, c = head a r) : ∃ k, Scalar k ∧ c.clean = encodeRune k := by
  obtain ⟨a, r, rfl⟩ := h
  by_cases hb : ∃ b, head a r = .bad b
  · obtain ⟨b, hb⟩ := hb
    rw [hb]
    exact ⟨0xFFFD, by unfold Scalar; omega, by rfl⟩
  · have hb : ∀ b, head a r ≠ .bad b := fun b hh => hb ⟨b, hh⟩
    obtain ⟨k, h1, h2⟩ := rune_of_head hb
    refine ⟨k, h1, ?_⟩
    rw [← h2]
    cases hh : head a r with
    | bad b => exact absurd hh (hb b)
    | _ => rfl

theorem chunk_is_head {s : Str} : ∀ c ∈ chunks s, ∃ a r, c = head a r := by
  have key : ∀ (n : Nat) (s : Str), s.length ≤ n → ∀ c ∈ chunks s, ∃ a r, c = head a r := by
    intro n
    induction n with
    | zero => intro s hs c hc; simp at hs; subst hs; simp [chunks, chunksFrom] at hc
    | succ n ih =>
      intro s hs c hc
      cases s with
      | nil => simp [chunks, chunksFrom] at hc
      | cons a r =>
        obtain ⟨t, h1, h2⟩ := chunks_cons a r
        rw [h2] at hc
        rcases List.mem_cons.1 hc with rfl | hc
        · exact ⟨a, r, rfl⟩
        · obtain ⟨l, h3, _⟩ := src_ne_nil a r
          refine ih t ?_ c hc
          have := congrArg List.length h1
          rw [h3] at this
          simp at this hs
          omega
  exact key _ s (Nat.le_refl _)

/-- Cleaned texts are valid. -/
theorem valid_sanitize (s : Str) : validUtf8 (sanitize s) := by
  rw [validUtf8_iff]
  have key : ∀ l : List Chunk, (∀ c ∈ l, ∃ a r, c = head a r) →
      ∃ rs : List Nat, (∀ r ∈ rs, Scalar r) ∧ l.flatMap Chunk.clean = rs.flatMap encodeRune := by
    intro l
    induction l with
    | nil => intro _; exact ⟨[], by simp, rfl⟩
    | cons c l ih =>
      intro hl
      obtain ⟨k, h1, h2⟩ := clean_scalar (hl c (by simp))
      obtain ⟨rs, h3, h4⟩ := ih fun x hx => hl x (by simp [hx])
      refine ⟨k :: rs, ?_, ?_⟩
      · intro x hx
        rcases List.mem_cons.1 hx with rfl | hx
        · exact h1
        · exact h3 x hx
      · rw [List.flatMap_cons, List.flatMap_cons, h2, h4]
  exact key _ chunk_is_head

/-- **C17, violated.** A tag whose name is not valid UTF-8 is never there after saving and loading. -/
theorem C17_violated_lost {s : TS} (h : Reach s) {t : Str} (ht : ¬ validUtf8 t) {sh : Bool} {bytes : Str}
    (hs : SavesAs sh s bytes) {s' : TS} (hl : spaceLoad (.ok bytes) = .ok s') : s'.abs.tag t = none := by
  by_cases hS : s.abs.Shallow
  · obtain ⟨s1, h1, _, h3⟩ := (load_saved h hs).1 hS
    rw [hl] at h1; cases h1
    cases hg : s'.abs.tag t with
    | none => rfl
    | some u =>
      obtain ⟨k0, _, _, _, rfl, _⟩ := (h3.tag t u).1 hg
      exact absurd (valid_sanitize k0) ht
  · rw [(load_saved h hs).2 hS] at hl; cases hl

/-- Two tags on different nodes that differ in an invalid byte. -/
def badTags : List Op :=
  [.add none (sampleIDs 0) none none, .add (some (sampleIDs 0)) (sampleIDs 1) none none,
   .addTag [0xFE] (sampleIDs 0), .addTag [0xFF] (sampleIDs 1)]

theorem badTags_reach : Reach (runOps .empty badTags) := reach_runOps .new (by decide)

theorem tags_of_get {s : TS} {l : List (Str × Ref)} (hl : s.tree.tags = some l) {t : Str} {u : UID}
    (h : s.abs.tag t = some u) : t ∈ AL.keys l := by
  simp only [abs, getByTag, hl] at h
  obtain ⟨r, hr, _⟩ := Option.bind_eq_some_iff.1 h
  exact AL.mem_keys_iff.2 ⟨r, hr⟩

/-- **C17, violated.** Two tags on different nodes become one tag. -/
theorem C17_violated_merged {sh : Bool} {bytes : Str} (hs : SavesAs sh (runOps .empty badTags) bytes) {s' : TS}
    (hl : spaceLoad (.ok bytes) = .ok s') :
    (runOps .empty badTags).abs.tag [0xFE] = some (sampleIDs 0) ∧
    (runOps .empty badTags).abs.tag [0xFF] = some (sampleIDs 1) ∧
    s'.abs.tag [0xEF, 0xBF, 0xBD] = some (sampleIDs 1) ∧
    ∀ t u, s'.abs.tag t = some u → t = [0xEF, 0xBF, 0xBD] := by
  refine ⟨by decide, by decide, ?_⟩
  have hkeys : ∀ t u, (runOps .empty badTags).abs.tag t = some u → t = [0xFE] ∨ t = [0xFF] := by
    intro t u ht
    have := tags_of_get (l := [([0xFE], 0), ([0xFF], 1)]) (by decide) ht
    simpa [AL.keys] using this
  by_cases hS : (runOps .empty badTags).abs.Shallow
  · obtain ⟨s1, h1, _, h3⟩ := (load_saved badTags_reach hs).1 hS
    rw [hl] at h1; cases h1
    constructor
    · refine (h3.tag _ _).2 ⟨[0xFF], sampleIDs 1, by decide, rfl, by decide, ?_⟩
      intro k1 v1 hk _
      rcases hkeys k1 v1 hk with rfl | rfl <;> decide
    · intro t u ht
      obtain ⟨k0, v0, a, _, b, _⟩ := (h3.tag t u).1 ht
      rw [← b]
      rcases hkeys k0 v0 a with rfl | rfl <;> decide
  · rw [(load_saved badTags_reach hs).2 hS] at hl; cases hl

/-! ### The hypotheses are met -/

theorem shallow_of_size {s : TS} (h : WF s) (hsz : s.tree.nodes.size ≤ 4999) : s.abs.Shallow := by
  intro u n l hu hp
  obtain ⟨dep, hdep⟩ := h.depth
  obtain ⟨r, o, h1, h2, h3, rfl⟩ := (abs_node_iff h u n).1 hu
  cases hr : s.tree.root with
  | none => rw [h.rootNone hr] at h2; cases h2
  | some r0 =>
    have := path_depth h hdep hr hp h1 h2 h3
    have := (hdep r o h1 h2).1
    exact ⟨by omega, fun _ => by omega⟩

/-- Executable check that all texts of a tree are ASCII. -/
def asciiTree (s : TS) : Bool :=
  let ok (x : Str) := x.all fun b => b < 0x80
  s.heap.all (fun o => (o.annotations.entries.all fun e => ok e.1 && ok e.2) && o.data.entries.all fun e => ok e.1) &&
    (AL.keys s.tree.branches.entries).all ok && (AL.keys s.tree.tags.entries).all ok

theorem utf8_of_ascii {s : TS} (h : asciiTree s = true) : s.abs.Utf8 := by
  simp only [asciiTree, Bool.and_eq_true, List.all_eq_true] at h
  obtain ⟨⟨h1, h2⟩, h3⟩ := h
  have hv : ∀ x : Str, (∀ b ∈ x, decide (b < (0x80 : UInt8)) = true) → validUtf8 x :=
    fun x hx => valid_ascii fun b hb => by simpa using hx b hb
  have hnode : ∀ u n, s.abs.node u = some n → ∃ o ∈ s.heap, n = absObj s.heap o := by
    intro u n hn
    simp only [abs] at hn
    obtain ⟨r, _, hn⟩ := Option.bind_eq_some_iff.1 hn
    obtain ⟨o, ho, rfl⟩ := Option.map_eq_some_iff.1 hn
    exact ⟨o, List.mem_of_getElem? ho, rfl⟩
  constructor
  · intro b u hb
    simp only [abs, getByBranch] at hb
    obtain ⟨r, hr, _⟩ := Option.bind_eq_some_iff.1 hb
    exact hv b (h2 b (AL.mem_keys_iff.2 ⟨r, hr⟩))
  · intro b u hb
    simp only [abs, getByTag] at hb
    obtain ⟨r, hr, _⟩ := Option.bind_eq_some_iff.1 hb
    exact hv b (h3 b (AL.mem_keys_iff.2 ⟨r, hr⟩))
  · intro u n k v hn hk
    obtain ⟨o, ho, rfl⟩ := hnode u n hn
    have := (h1 o ho).1 (k, v) (AL.mem_of_get hk)
    exact ⟨hv k this.1, hv v this.2⟩
  · intro u n k v hn hk
    obtain ⟨o, ho, rfl⟩ := hnode u n hn
    exact hv k ((h1 o ho).2 (k, v) (AL.mem_of_get hk))

/-- The sample tree (with annotations, data, a branch and two tags) meets the hypotheses of `C17_save_load_partial`. -/
theorem sampleTree_good : sampleTree.abs.Utf8 ∧ sampleTree.abs.Shallow :=
  ⟨utf8_of_ascii (by decide), shallow_of_size (wf_of_reach sampleTree_reach) (by decide)⟩

example : ∃ bytes s', SavesAs true sampleTree bytes ∧ spaceLoad (.ok bytes) = .ok s' ∧ s'.abs = sampleTree.abs := by
  obtain ⟨bytes, hb⟩ := C17_saves sampleTree_reach true
  obtain ⟨s', h1, _, h2⟩ := C17_save_load_partial sampleTree_reach sampleTree_good.1 sampleTree_good.2 hb
  exact ⟨bytes, s', hb, h1, h2⟩

/-- Texts that JSON must escape and texts outside ASCII are valid, others are not. -/
example : validUtf8 [0x22, 0x5C, 0x00, 0x3C, 0xE2, 0x80, 0xA8, 0xF0, 0x9F, 0x98, 0x80] ∧ ¬ validUtf8 [0xED, 0xA0, 0x80] ∧
    ¬ validUtf8 [0xC0, 0xAF] := by
  refine ⟨?_, ?_, ?_⟩
  · rw [validUtf8_iff]
    refine ⟨[0x22, 0x5C, 0x00, 0x3C, 0x2028, 0x1F600], ?_, by decide⟩
    intro r hr
    simp only [List.mem_cons, List.not_mem_nil, or_false] at hr
    unfold Scalar
    omega
  · intro h; exact h (.bad 0xED) (by decide) 0xED rfl
  · intro h; exact h (.bad 0xC0) (by decide) 0xC0 rfl

/-! ## C18 -/

/-- **C18.** A strict prefix of a saved file is rejected: for every tree, cut anywhere. -/
theorem C18_torn_detected {s : TS} {sh : Bool} {bytes p q : Str} (hs : SavesAs sh s bytes) (hp : p ++ q = bytes)
    (hq : q ≠ []) : spaceLoad (.ok p) = .err .unmarshal := by
  obtain ⟨d, _, rfl⟩ := hs
  simp only [spaceLoad, unmarshal_prefix sh d hp hq]

/-- **C18.** If reading a saved file stops with an I/O error after any number of bytes, `Load` returns an error or, if all
bytes had been read, the same as without the error — although the code does not check for such errors. -/
theorem C18_read_error {s : TS} {sh : Bool} {bytes p : Str} (hs : SavesAs sh s bytes) (hp : p <+: bytes) :
    spaceLoad (.failed p) = .err .unmarshal ∨ (p = bytes ∧ spaceLoad (.failed p) = spaceLoad (.ok bytes)) := by
  obtain ⟨q, hq⟩ := hp
  by_cases h : q = []
  · subst h
    rw [List.append_nil] at hq
    subst hq
    exact Or.inr ⟨rfl, rfl⟩
  · exact Or.inl (C18_torn_detected hs hq h)

/-- **C18.** So a load from a prefix never gives a different tree. -/
theorem C18_never_misread {s : TS} {sh : Bool} {bytes p : Str} (hs : SavesAs sh s bytes) (hp : p <+: bytes) {s' : TS}
    (hl : spaceLoad (.ok p) = .ok s') : p = bytes := by
  obtain ⟨q, hq⟩ := hp
  by_cases h : q = []
  · subst h; simpa using hq
  · rw [C18_torn_detected hs hq h] at hl; cases hl

/-- The file of the sample tree is not empty, so it has strict prefixes; the empty file is one of them. -/
example : ∃ bytes, SavesAs false sampleTree bytes ∧ spaceLoad (.ok []) = .err .unmarshal ∧ bytes ≠ [] := by
  obtain ⟨bytes, hb⟩ := C17_saves sampleTree_reach false
  refine ⟨bytes, hb, by rfl, ?_⟩
  obtain ⟨d, _, rfl⟩ := hb
  simp [marshalDump, emit]

/-! ## C19 -/

/-- **C19 (exactly what holds).** A saved tree can be loaded exactly when no node is deeper than the JSON decoder allows:
at most 5000 nodes from the node up to the root, 4999 for a node with annotations or data. -/
theorem C19_loads_iff_partial {s : TS} (h : Reach s) {sh : Bool} {bytes : Str} (hs : SavesAs sh s bytes) :
    (∃ s', spaceLoad (.ok bytes) = .ok s') ↔ s.abs.Shallow := by
  constructor
  · rintro ⟨s', hl⟩
    by_cases hS : s.abs.Shallow
    · exact hS
    · rw [(load_saved h hs).2 hS] at hl; cases hl
  · intro hS
    obtain ⟨s', h1, _⟩ := (load_saved h hs).1 hS
    exact ⟨s', h1⟩

/-- **C19.** In particular a space with fewer than 5000 layers always loads. -/
theorem C19_small_loads {s : TS} (h : Reach s) (hsz : s.tree.nodes.size ≤ 4999) {sh : Bool} {bytes : Str}
    (hs : SavesAs sh s bytes) : ∃ s', spaceLoad (.ok bytes) = .ok s' :=
  (C19_loads_iff_partial h hs).2 (shallow_of_size (wf_of_reach h) hsz)

/-- IDs for a long chain. -/
def chainID (k : Nat) : UID := ⟨List.replicate 14 0 ++ [UInt8.ofNat (k / 256), UInt8.ofNat (k % 256)], by simp⟩

theorem chainID_inj {a b : Nat} (ha : a < 65536) (hb : b < 65536) (h : chainID a = chainID b) : a = b := by
  have h1 := congrArg UID.bytes h
  simp only [chainID, List.append_cancel_left_eq, List.cons.injEq, and_true] at h1
  have h2 := congrArg UInt8.toNat h1.1
  have h3 := congrArg UInt8.toNat h1.2
  rw [toNat_ofNat (by omega), toNat_ofNat (by omega)] at h2
  rw [toNat_ofNat (by omega), toNat_ofNat (by omega)] at h3
  omega

/-- The node number `k` of a chain. -/
def chainNode (k : Nat) : ANode := ⟨if k = 0 then none else some (chainID (k - 1)), fun _ => none, fun _ => none⟩

/-- A chain of nodes without annotations and data. -/
def IsChain (a : ATree) (n : Nat) : Prop := ∀ u nd, a.node u = some nd ↔ ∃ k, k ≤ n ∧ u = chainID k ∧ nd = chainNode k

theorem chain_node {a : ATree} {n k : Nat} (hn : n < 65536) (h : IsChain a n) {nd : ANode}
    (hk : k ≤ n) (hd : a.node (chainID k) = some nd) : nd = chainNode k := by
  obtain ⟨j, hj, he, hx⟩ := (h _ _).1 hd
  have := chainID_inj (by omega) (by omega) he
  subst this; exact hx

theorem chain_path {a : ATree} {n : Nat} (hn : n < 65536) (h : IsChain a n) {u : UID} {l : List UID}
    (hp : ATree.Path a u l) : ∀ k, k ≤ n → u = chainID k → l.length = k + 1 := by
  induction hp with
  | root h1 h2 =>
    rintro k hk rfl
    have := chain_node hn h hk h1
    subst this
    simp only [chainNode] at h2
    split at h2
    · simp_all
    · cases h2
  | step h1 h2 h3 ih =>
    rintro k hk rfl
    have := chain_node hn h hk h1
    subst this
    simp only [chainNode] at h2
    split at h2
    · cases h2
    · cases h2
      have := ih (k - 1) (by omega) rfl
      rw [List.length_cons, this]; omega

/-- A chain of any length up to 65536. -/
theorem chain_exists : ∀ (n : Nat), n < 65536 → ∃ s, Reach s ∧ IsChain s.abs n := by
  intro n
  induction n with
  | zero =>
    intro _
    have hnh : ¬ empty.abs.Has (chainID 0) := by rw [abs_empty]; rintro ⟨n, hn⟩; cases hn
    rcases addNew_cases (p := none) wf_empty hnh GoMap.nodup_none GoMap.nodup_none with
      ⟨s0, a, hw0, habs0, _⟩ | ⟨e, a, ⟨_, b⟩ | ⟨q, b, _⟩⟩
    · rw [abs_empty] at habs0
      refine ⟨s0, .ok (op := .add none (chainID 0) none none) .new ⟨hnh, GoMap.nodup_none, GoMap.nodup_none⟩ a, ?_⟩
      intro u nd
      rw [habs0]
      simp only [ATree.add, upd, ATree.empty]
      constructor
      · intro hm
        split at hm
        · rename_i hu; cases hm; exact ⟨0, Nat.le_refl _, hu, rfl⟩
        · cases hm
      · rintro ⟨k, hk, rfl, rfl⟩
        obtain rfl : k = 0 := by omega
        rw [if_pos rfl]; rfl
    · rw [abs_empty] at b; exact absurd rfl b
    · cases b
  | succ n ih =>
    intro hn
    obtain ⟨s, hr, hc⟩ := ih (by omega)
    have hnh : ¬ s.abs.Has (chainID (n + 1)) := by
      rintro ⟨nd, hh⟩
      obtain ⟨k, hk, he, _⟩ := (hc _ _).1 hh
      have := chainID_inj (by omega) (by omega) he
      omega
    rcases addNew_cases (p := some (chainID n)) (wf_of_reach hr) hnh GoMap.nodup_none GoMap.nodup_none with
      ⟨s1, a, hw1, habs1, _⟩ | ⟨e, a, ⟨b, _⟩ | ⟨q, b, c⟩⟩
    · refine ⟨s1, .ok (op := .add (some (chainID n)) (chainID (n + 1)) none none) hr
        ⟨hnh, GoMap.nodup_none, GoMap.nodup_none⟩ a, ?_⟩
      intro u nd
      rw [habs1]
      simp only [ATree.add, upd]
      constructor
      · intro hm
        split at hm
        · rename_i hu; cases hm; exact ⟨n + 1, Nat.le_refl _, hu, rfl⟩
        · obtain ⟨k, hk, h1, h2⟩ := (hc _ _).1 hm
          exact ⟨k, by omega, h1, h2⟩
      · rintro ⟨k, hk, rfl, rfl⟩
        by_cases hkn : k = n + 1
        · subst hkn; rw [if_pos rfl]; rfl
        · rw [if_neg (fun he => hkn (chainID_inj (by omega) (by omega) he))]
          exact (hc _ _).2 ⟨k, by omega, rfl, rfl⟩
    · cases b
    · cases b
      exact absurd ⟨_, (hc _ _).2 ⟨n, Nat.le_refl _, rfl, rfl⟩⟩ c

/-- **C19, violated.** Every chain of more than 5000 layers is such a history: `Save` writes it without error and `Load`
never reads it. -/
theorem C19_violated_depth {s : TS} (h : Reach s) {n : Nat} (h1 : 5000 ≤ n) (h2 : n < 65536) (hc : IsChain s.abs n) :
    (∃ bytes, SavesAs true s bytes) ∧ ∀ sh bytes, SavesAs sh s bytes → spaceLoad (.ok bytes) = .err .unmarshal := by
  refine ⟨C17_saves h true, fun sh bytes hs => (load_saved h hs).2 fun hS => ?_⟩
  have hnode := (hc _ _).2 ⟨n, Nat.le_refl _, rfl, rfl⟩
  obtain ⟨l, hl⟩ := (rooted_of_wf (wf_of_reach h)).path _ ⟨_, hnode⟩
  have h3 := chain_path h2 hc hl n (Nat.le_refl _) rfl
  have := (hS _ _ _ hnode hl).1
  omega

/-- Such a history exists. -/
example : ∃ s, Reach s ∧ IsChain s.abs 5000 := chain_exists 5000 (by omega)

/-- The bound is sharp: chains of up to 5000 bare layers load. -/
theorem C19_chain_loads {s : TS} (h : Reach s) {n : Nat} (hn : n < 5000) (hc : IsChain s.abs n) {sh : Bool} {bytes : Str}
    (hs : SavesAs sh s bytes) : ∃ s', spaceLoad (.ok bytes) = .ok s' := by
  refine (C19_loads_iff_partial h hs).2 ?_
  intro u nd l hnd hp
  obtain ⟨k, hk, rfl, rfl⟩ := (hc _ _).1 hnd
  have := chain_path (by omega) hc hp k hk rfl
  refine ⟨by omega, ?_⟩
  rintro (⟨_, _, h⟩ | ⟨_, _, h⟩) <;> cases h

/-! ## Workspace records

The `.workspace` files are written and read in the same way. -/

theorem key_info : sanitize (lit "id") = lit "id" ∧ sanitize (lit "path") = lit "path" ∧ sanitize (lit "head") = lit "head" ∧
    sanitize (lit "sapceID") = lit "sapceID" ∧ sanitize (lit "mountID") = lit "mountID" ∧
    sanitize (lit "branch") = lit "branch" := by decide

theorem fold_info : foldKey (lit "id") = lit "id" ∧ foldKey (lit "path") = lit "path" ∧ foldKey (lit "head") = lit "head" ∧
    foldKey (lit "sapceID") = lit "sapceid" ∧ foldKey (lit "mountID") = lit "mountid" ∧
    foldKey (lit "branch") = lit "branch" := by decide

/-- **C17.** A workspace record comes back with invalid bytes replaced. -/
theorem C17_info_roundtrip (sh : Bool) (w : WsInfo) : unmarshalInfo (marshalInfo sh w) =
    some ⟨sanitize w.id, sanitize w.path, sanitize w.head, sanitize w.spaceID, sanitize w.mountID, sanitize w.branch⟩ := by
  obtain ⟨k1, k2, k3, k4, k5, k6⟩ := key_info
  obtain ⟨f1, f2, f3, f4, f5, f6⟩ := fold_info
  have hd : depth (.obj (infoFieldsJ w)) ≤ maxDepth := by
    have : depthFields (infoFieldsJ w) ≤ 0 := by
      rw [infoFieldsJ, depth_fields_le]
      intro e he
      simp only [List.mem_cons, List.not_mem_nil, or_false] at he
      rcases he with rfl | rfl | rfl | rfl | rfl | rfl <;> simp [depth]
    simp only [depth, maxDepth]
    omega
  have hnn : NoNum (.obj (infoFieldsJ w)) := by
    apply noNum_fields
    intro e he
    simp only [List.mem_cons, List.not_mem_nil, or_false] at he
    rcases he with rfl | rfl | rfl | rfl | rfl | rfl <;> trivial
  unfold unmarshalInfo parse marshalInfo
  rw [parseWith_emit sh _ _ hnn, if_pos hd, Option.bind_some]
  simp only [clean, infoFieldsJ, clean_fields, List.map_cons, List.map_nil, k1, k2, k3, k4, k5, k6]
  simp only [fields, infoOf]
  rw [infoFields, if_pos f1]
  simp only [strInto, Option.bind_some]
  rw [infoFields, if_neg (by rw [f2]; decide), if_pos f2]
  simp only [strInto, Option.bind_some]
  rw [infoFields, if_neg (by rw [f3]; decide), if_neg (by rw [f3]; decide), if_pos f3]
  simp only [strInto, Option.bind_some]
  rw [infoFields, if_neg (by rw [f4]; decide), if_neg (by rw [f4]; decide), if_neg (by rw [f4]; decide), if_pos f4]
  simp only [strInto, Option.bind_some]
  rw [infoFields, if_neg (by rw [f5]; decide), if_neg (by rw [f5]; decide), if_neg (by rw [f5]; decide),
    if_neg (by rw [f5]; decide), if_pos f5]
  simp only [strInto, Option.bind_some]
  rw [infoFields, if_neg (by rw [f6]; decide), if_neg (by rw [f6]; decide), if_neg (by rw [f6]; decide),
    if_neg (by rw [f6]; decide), if_neg (by rw [f6]; decide), if_pos f6]
  simp only [strInto, Option.bind_some]
  rfl

/-- **C18.** A torn workspace record is rejected. -/
theorem C18_info_torn (sh : Bool) (w : WsInfo) {p q : Str} (hp : p ++ q = marshalInfo sh w) (hq : q ≠ []) :
    unmarshalInfo p = none := by
  have hnn : NoNum (.obj (infoFieldsJ w)) := by
    apply noNum_fields
    intro e he
    simp only [List.mem_cons, List.not_mem_nil, or_false] at he
    rcases he with rfl | rfl | rfl | rfl | rfl | rfl <;> trivial
  unfold unmarshalInfo parse
  rw [parse_prefix sh _ _ hnn hp hq]; rfl

end Verif
