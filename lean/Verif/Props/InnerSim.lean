import Verif.Props.BelowEdit
import Verif.World.Inner
/-!
# A workspace inside a workspace behaves as any other

A run of a command on a path that leads through a workspace is matched with a run on a path of its own.
-/
set_option autoImplicit false
namespace Verif
open M TS Json

section
variable {α β : Type} {E : Env} {lk : Str → Option Str} {p n : Str} {q : List Str}

/-! ## What a mount shows below its top -/

theorem stack_cong {f g : UID → Content} {ls : List UID} (h : ∀ v ∈ ls, ∀ x r, f v (x :: r) = g v (x :: r)) (r : List Str) :
    ∃ sub : List UID, (∀ v ∈ sub, v ∈ ls) ∧ stack (ls.map f) r = sub.map f ∧ stack (ls.map g) r = sub.map g := by
  induction r with
  | nil => exact ⟨ls, fun _ hv => hv, rfl, rfl⟩
  | cons x r ih =>
    obtain ⟨sub, h1, h2, h3⟩ := ih
    rw [stack, stack, h2, h3]
    clear h2 h3
    induction sub with
    | nil => exact ⟨[], nofun, rfl, rfl⟩
    | cons v sub ih =>
      obtain ⟨s, s1, s2, s3⟩ := ih fun u hu => h1 u (.tail _ hu)
      have e := h v (h1 v (.head _)) x r
      simp only [List.map_cons, merge, e]
      cases hg : g v (x :: r) with
      | none => exact ⟨s, s1, s2, s3⟩
      | some en =>
        cases en with
        | file b => exact ⟨[], nofun, rfl, rfl⟩
        | whiteout => exact ⟨[], nofun, rfl, rfl⟩
        | dir o a =>
          cases o with
          | true => exact ⟨[v], fun u hu => by rw [List.mem_singleton.1 hu]; exact h1 v (.head _), rfl, rfl⟩
          | false =>
            refine ⟨v :: s, fun u hu => ?_, by simp only [s2, List.map_cons], by simp only [s3, List.map_cons]⟩
            rcases List.mem_cons.1 hu with rfl | hu
            · exact h1 u (.head _)
            · exact s1 u hu

theorem topEnt_cong {f g : UID → Content} {x : Str} {r : List Str} : ∀ {sub : List UID}, (∀ v ∈ sub, f v (x :: r) = g v (x :: r)) → topEnt (x :: r) (sub.map f) = topEnt (x :: r) (sub.map g)
  | [], _ => rfl
  | v :: sub, h => by
    simp only [List.map_cons, topEnt, h v (.head _), topEnt_cong fun u hu => h u (.tail _ hu)]

theorem view_cong {f g : UID → Content} {ls : List UID} (h : ∀ v ∈ ls, ∀ x r, f v (x :: r) = g v (x :: r)) {r : List Str} (hr : r ≠ []) :
    view (ls.map f) r = view (ls.map g) r := by
  cases r with
  | nil => exact absurd rfl hr
  | cons x r =>
    obtain ⟨sub, h1, h2, h3⟩ := stack_cong h r
    rw [view, view, h2, h3]
    exact topEnt_cong fun v hv => h v (h1 v hv) x r

theorem entry_cong {d d' : Disk} {n n' : Str} (hq : q ≠ []) (h : ∀ r, r ≠ [] → d'.shows n' r = d.shows n r) : d'.entryAt lk n' q = d.entryAt lk n q := by
  unfold Disk.entryAt
  have h2 : ∀ x, d'.shows n' (x :: q) = d.shows n (x :: q) := fun x => h _ (List.cons_ne_nil _ _)
  have h3 : q.tail ≠ [] → d'.shows n' q.tail = d.shows n q.tail := h _
  rw [h q hq]
  cases d.shows n q with
  | none =>
    dsimp only
    by_cases ht : q.tail = []
    · rw [if_pos (Or.inl ht), if_pos (Or.inl ht)]
    · have e : (q.tail = [] ∨ d'.ShowsDir n' q.tail) = (q.tail = [] ∨ d.ShowsDir n q.tail) := by simp only [Disk.ShowsDir, h3 ht]
      by_cases hd : q.tail = [] ∨ d.ShowsDir n q.tail
      · rw [if_pos hd, if_pos (e ▸ hd)]
      · rw [if_neg hd, if_neg (e ▸ hd)]
  | some v =>
    cases v with
    | file data => rfl
    | dir a =>
      dsimp only
      have e : (∀ x, d'.shows n' (x :: q) = none) = ∀ x, d.shows n (x :: q) = none := by simp only [h2]
      by_cases hd : ∀ x, d.shows n (x :: q) = none
      · rw [if_pos hd, if_pos (e ▸ hd)]
      · rw [if_neg hd, if_neg (e ▸ hd)]

/-! ## The other disk -/

/-- `e` is `d` with the path `p` as a path of its own, but for what is in the upper layer of the mount `n`; and since `d0` that mount shows
the same everywhere but at `q` and at its top. -/
structure Mir (lk : Str → Option Str) (p n : Str) (q : List Str) (m : Mnt) (d0 d e : Disk) : Prop where
  used : e.used = d.used
  space : e.space = d.space
  mdir : e.mdir = d.mdir
  info : e.info = d.info
  mnt : e.mnt = d.mnt
  layer : ∀ u, u ≠ m.upper → e.layer u = d.layer u
  top : d.HasDiff m.upper ∧ e.HasDiff m.upper
  low : ∀ v ∈ m.lowers, d.HasDiff v
  user : ∀ r, r ≠ p → e.user r = d.user r
  seen : e.user p = d.entryAt lk n q
  mounted : d.mnt n = some m
  rest : ∀ r, r ≠ q → r ≠ [] → d.shows n r = d0.shows n r

variable {m : Mnt} {d0 : Disk}

theorem mir_diff {d e : Disk} (h : Mir lk p n q m d0 d e) (u : UID) : e.HasDiff u ↔ d.HasDiff u := by
  by_cases hu : u = m.upper
  · subst hu; exact ⟨fun _ => h.top.1, fun _ => h.top.2⟩
  · unfold Disk.HasDiff; rw [h.layer u hu]

theorem mir_none {d e : Disk} (h : Mir lk p n q m d0 d e) (u : UID) : e.layer u = none ↔ d.layer u = none := by
  by_cases hu : u = m.upper
  · subst hu
    obtain ⟨⟨a, ha⟩, b, hb⟩ := h.top
    simp [ha, hb]
  · rw [h.layer u hu]

theorem mir_bare {d e : Disk} (h : Mir lk p n q m d0 d e) (u : UID) : e.layer u = some none ↔ d.layer u = some none := by
  by_cases hu : u = m.upper
  · subst hu
    obtain ⟨⟨a, ha⟩, b, hb⟩ := h.top
    simp [ha, hb]
  · rw [h.layer u hu]

/-- Only what is below the top of the mount `n` matters. -/
theorem mir_next {d e d' e' : Disk} (hq : q ≠ []) (h : Mir lk p n q m d0 d e) (used : e'.used = d'.used) (space : e'.space = d'.space) (mdir : e'.mdir = d'.mdir)
    (info : e'.info = d'.info) (mnt : e'.mnt = d'.mnt) (layer : ∀ u, u ≠ m.upper → e'.layer u = d'.layer u) (top : d'.HasDiff m.upper ∧ e'.HasDiff m.upper)
    (low : ∀ v ∈ m.lowers, d'.HasDiff v) (hu : d'.user = d.user) (hu' : e'.user = e.user) (mounted : d'.mnt n = some m)
    (hc : ∀ v ∈ m.upper :: m.lowers, ∀ x r, d'.content v (x :: r) = d.content v (x :: r)) : Mir lk p n q m d0 d' e' := by
  have hs : ∀ r, r ≠ [] → d'.shows n r = d.shows n r := by
    intro r hr
    simp only [Disk.shows, mounted, h.mounted]
    exact view_cong hc hr
  exact ⟨used, space, mdir, info, mnt, layer, top, low, fun r hr => by rw [hu, hu']; exact h.user r hr, by rw [hu', h.seen]; exact (entry_cong hq hs).symm, mounted,
    fun r h1 h2 => by rw [hs r h2]; exact h.rest r h1 h2⟩

theorem does_mir {d e d1 e1 d' : Disk} {P P' : Prop} {a : Bool} (h : Mir lk p n q m d0 d e) (hP : P' ↔ P) (h1 : P → Mir lk p n q m d0 d1 e1)
    (hs : Does Faults.none P d1 d a d') : ∃ e', Does Faults.none P' e1 e a e' ∧ Mir lk p n q m d0 d' e' := by
  rcases hs with ⟨a1, a2, rfl⟩ | ⟨a1, a2, rfl⟩
  · exact ⟨e1, Or.inl ⟨a1, hP.2 a2, rfl⟩, h1 a2⟩
  · exact ⟨e, Or.inr ⟨a1, a2.imp (fun x y => x (hP.1 y)) (fun x => x), rfl⟩, h⟩

theorem tests_mir {d e d' : Disk} {P P' : Prop} {a : Bool} (h : Mir lk p n q m d0 d e) (hP : P' ↔ P) (hs : Tests Faults.none P d a d') :
    ∃ e', Tests Faults.none P' e a e' ∧ Mir lk p n q m d0 d' e' := by
  obtain ⟨rfl, hs⟩ := hs
  refine ⟨e, ⟨rfl, hs.imp (fun x => ⟨x.1, hP.2 x.2⟩) fun x => ⟨x.1, x.2.imp (fun x y => x (hP.1 y)) (fun x => x)⟩⟩, h⟩

theorem mir_space {d e : Disk} (hq : q ≠ []) (h : Mir lk p n q m d0 d e) (k : Str) (x : Option (Option Str)) : Mir lk p n q m d0 (d.setSpace k x) (e.setSpace k x) :=
  mir_next hq h h.used (by simp only [Disk.setSpace, h.space]) h.mdir h.info h.mnt h.layer h.top h.low rfl rfl h.mounted fun _ _ _ _ => rfl

theorem mir_mdir {d e : Disk} (hq : q ≠ []) (h : Mir lk p n q m d0 d e) (k : Str) (x : Option MDir) : Mir lk p n q m d0 (d.setMdir k x) (e.setMdir k x) :=
  mir_next hq h h.used h.space (by simp only [Disk.setMdir, h.mdir]) h.info h.mnt h.layer h.top h.low rfl rfl h.mounted fun _ _ _ _ => rfl

theorem mir_info {d e : Disk} (hq : q ≠ []) (h : Mir lk p n q m d0 d e) (k : Str) (x : Option Str) : Mir lk p n q m d0 (d.setInfo k x) (e.setInfo k x) :=
  mir_next hq h h.used h.space h.mdir (by simp only [Disk.setInfo, h.info]) h.mnt h.layer h.top h.low rfl rfl h.mounted fun _ _ _ _ => rfl

theorem mir_mnt {d e : Disk} (hq : q ≠ []) (h : Mir lk p n q m d0 d e) (k : Str) (x : Option Mnt) (hk : (e.setMnt k x).mnt n = some m) :
    Mir lk p n q m d0 (d.setMnt k x) (e.setMnt k x) :=
  mir_next hq h h.used h.space h.mdir h.info (by simp only [Disk.setMnt, h.mnt]) h.layer h.top h.low rfl rfl (by simp only [Disk.setMnt, h.mnt] at hk ⊢; exact hk) fun _ _ _ _ => rfl

theorem mir_used {d e : Disk} (hq : q ≠ []) (h : Mir lk p n q m d0 d e) (u : UID) : Mir lk p n q m d0 { d with used := u :: d.used } { e with used := u :: e.used } :=
  mir_next hq h (by simp only [h.used]) h.space h.mdir h.info h.mnt h.layer h.top h.low rfl rfl h.mounted fun _ _ _ _ => rfl

/-- A layer that is not part of the mount. -/
theorem mir_layer {d e : Disk} (hq : q ≠ []) (h : Mir lk p n q m d0 d e) (u : UID) (hu : ¬ d.HasDiff u) (x : Option (Option Content)) :
    Mir lk p n q m d0 (d.setLayer u x) (e.setLayer u x) := by
  have hne : ∀ v, d.HasDiff v → v ≠ u := by rintro v hv rfl; exact hu hv
  have hst : ∀ v ∈ m.upper :: m.lowers, v ≠ u := by
    intro v hv
    rcases List.mem_cons.1 hv with rfl | hv
    · exact hne _ h.top.1
    · exact hne _ (h.low v hv)
  have hk : ∀ (y : Disk) v, v ≠ u → (y.setLayer u x).layer v = y.layer v := fun y v hv => by simp only [Disk.setLayer, upd_ne _ _ hv]
  refine mir_next hq h h.used h.space h.mdir h.info h.mnt (fun v hv => ?_) ?_ (fun v hv => ?_) rfl rfl h.mounted fun v hv y r => ?_
  · by_cases e : v = u
    · subst e; simp only [Disk.setLayer, upd_self]
    · rw [hk _ _ e, hk _ _ e, h.layer v hv]
  · unfold Disk.HasDiff
    rw [hk _ _ (hst _ (.head _)), hk _ _ (hst _ (.head _))]; exact h.top
  · unfold Disk.HasDiff
    rw [hk _ _ (hst _ (.tail _ hv))]; exact h.low v hv
  · simp only [Disk.content, hk _ _ (hst v hv)]

theorem mir_chown {d e : Disk} (hq : q ≠ []) (h : Mir lk p n q m d0 d e) (u : UID) (o : Nat) :
    Mir lk p n q m d0 (d.put u ((d.content u).chown o)) (e.put u ((e.content u).chown o)) := by
  obtain ⟨a1, a2, a3, a4, a5, a6⟩ := put_rest d u ((d.content u).chown o)
  obtain ⟨b1, b2, b3, b4, b5, b6⟩ := put_rest e u ((e.content u).chown o)
  refine mir_next hq h (by rw [b6, a6, h.used]) (by rw [b1, a1, h.space]) (by rw [b2, a2, h.mdir]) (by rw [b3, a3, h.info]) (by rw [b4, a4, h.mnt]) (fun v hv => ?_)
    ⟨put_hasDiff h.top.1, put_hasDiff h.top.2⟩ (fun v hv => put_hasDiff (h.low v hv)) a5 b5 (by rw [a4]; exact h.mounted) fun v hv x r => ?_
  · by_cases e : v = u
    · subst e
      simp only [Disk.put, Disk.content, h.layer v hv]
      split
      · simp only [Disk.setLayer, upd_self]
      · exact h.layer v hv
    · rw [(put_layer _ _ _ _).resolve_right fun x => e x.1, (put_layer _ _ _ _).resolve_right fun x => e x.1, h.layer v hv]
  · by_cases e : v = u
    · subst e
      have hv : d.HasDiff v := by
        rcases List.mem_cons.1 hv with rfl | hv
        · exact h.top.1
        · exact h.low v hv
      rw [put_content_self hv]
      simp [Content.chown]
    · rw [put_content_ne e]

/-- Neither removes mounts nor asks whether a directory is empty; and of the paths of the user, only `p` is used to write. -/
def Cmd.Mild (p : Str) : Cmd → Prop
  | .umount _ => False
  | .removeAllMount _ => False
  | .isEmptyDir _ => False
  | .exists_ r => r = p
  | .remove r => r = p
  | .symlink _ r => r = p
  | .lchown r => r = p
  | _ => True

/-- The program makes such calls only. -/
def MildP (p : Str) : Prog α → Prop
  | .ret _ => True
  | .op c k => c.Mild p ∧ ∀ x, MildP p (k x)

theorem mild_of_calm {A : Str → Prop} {x : Prog α} (h : CalmP A x) : MildP p x := by
  induction x with
  | ret a => trivial
  | op c k ih =>
    refine ⟨?_, fun y => ih y (h.2 y)⟩
    have := h.1
    cases c <;> first | trivial | exact this.elim

/-- A call on the path. -/
theorem via_on {d e d' : Disk} (hoff : E.Off p) (h : Mir lk p n q m d0 d e) {c : Cmd} (hm : c.Mild p) {a : c.Ans} (hc : c.On p) {e1 : Disk}
    (hs : Step E Faults.none c (d.seen lk p n q) a e1) (hr : Mirrored lk p n q d e1 d') : ∃ e', Step E Faults.none c e a e' ∧ Mir lk p n q m d0 d' e' := by
  obtain ⟨m', x, r1, rfl, r3, r4⟩ := hr
  rw [h.mounted] at r1; cases r1
  obtain ⟨a1, a2, a3, a4, a5, a6⟩ := put_rest d m.upper x
  have hno : ¬ ∃ k, E.Inside p k := fun ⟨k, hk⟩ => hoff k hk
  have hsu : (d.seen lk p n q).user p = e.user p := by rw [h.seen]; exact upd_self _ _ _
  have key : ∀ e', e' = e.setUser p (e1.user p) → Mir lk p n q m d0 (d.put m.upper x) e' := by
    rintro e' rfl
    refine ⟨by rw [a6]; exact h.used, by rw [a1]; exact h.space, by rw [a2]; exact h.mdir, by rw [a3]; exact h.info, by rw [a4]; exact h.mnt, fun u hu => ?_,
      ⟨put_hasDiff h.top.1, h.top.2⟩, fun v hv => put_hasDiff (h.low v hv), fun r hr => ?_, ?_, by rw [a4]; exact h.mounted, fun r h1 h2 => ?_⟩
    · rw [(put_layer _ _ _ _).resolve_right fun y => hu y.1]; exact h.layer u hu
    · rw [a5]; show upd e.user p _ r = _; rw [upd_ne _ _ hr]; exact h.user r hr
    · rw [r4]; exact upd_self _ _ _
    · rw [r3 r h1]; exact h.rest r h1 h2
  have same : e1 = d.seen lk p n q → e = e.setUser p (e1.user p) := by
    rintro rfl
    rw [hsu]
    obtain ⟨_, _, _, _, _, us, _⟩ := e
    simp only [Disk.setUser, Disk.mk.injEq, true_and, and_true]
    funext r
    by_cases hr : r = p
    · subst hr; rw [upd_self]
    · rw [upd_ne _ _ hr]
  have hset : ∀ y, (d.seen lk p n q).setUser p y = e1 → e.setUser p y = e.setUser p (e1.user p) := by
    rintro y rfl
    show _ = e.setUser p (upd _ p y p)
    rw [upd_self]
  cases c with
  | exists_ r =>
    obtain rfl : r = p := hc
    obtain ⟨hs1, hs⟩ := hs
    refine ⟨e, ⟨rfl, ?_⟩, key e (same hs1)⟩
    refine hs.imp (fun hs => ?_) fun hs => hs
    unfold Exists at hs ⊢
    rw [hsu] at hs
    rw [h.mdir]
    exact hs
  | isSymlink r =>
    obtain rfl : r = p := hc
    obtain ⟨hs1, hs⟩ := hs
    refine ⟨e, ⟨rfl, ?_⟩, key e (same hs1)⟩
    rw [hsu] at hs
    exact hs
  | readlink r =>
    obtain rfl : r = p := hc
    obtain ⟨hs1, hs⟩ := hs
    refine ⟨e, ⟨rfl, ?_⟩, key e (same hs1)⟩
    rw [hsu] at hs
    exact hs
  | remove r =>
    obtain rfl : r = p := hc
    rcases hs with ⟨_, hs⟩ | ⟨hs, _⟩
    · rw [hsu] at hs
      rcases hs with ⟨b1, b2, b3⟩ | ⟨b1, b2, b3⟩
      · exact ⟨_, Or.inl ⟨hno, Or.inl ⟨b1, b2, rfl⟩⟩, key _ (hset _ b3.symm)⟩
      · exact ⟨_, Or.inl ⟨hno, Or.inr ⟨b1, b2, rfl⟩⟩, key _ (same b3)⟩
    · exact absurd hs hno
  | symlink t r =>
    obtain rfl : r = p := hc
    rcases hs with ⟨_, hs⟩ | ⟨hs, _⟩
    · rw [hsu] at hs
      rcases hs with ⟨b1, b2, b3⟩ | ⟨b1, b2, b3⟩
      · exact ⟨_, Or.inl ⟨hno, Or.inl ⟨b1, b2, rfl⟩⟩, key _ (hset _ b3.symm)⟩
      · exact ⟨_, Or.inl ⟨hno, Or.inr ⟨b1, b2, rfl⟩⟩, key _ (same b3)⟩
    · exact absurd hs hno
  | lchown r =>
    obtain rfl : r = p := hc
    rcases hs with ⟨_, hs⟩ | ⟨hs, _⟩
    · rw [hsu] at hs
      rcases hs with ⟨b1, b2, b3⟩ | ⟨b1, b2, b3⟩
      · exact ⟨_, Or.inl ⟨hno, Or.inl ⟨b1, b2, rfl⟩⟩, key _ (same b3)⟩
      · exact ⟨_, Or.inl ⟨hno, Or.inr ⟨b1, b2, rfl⟩⟩, key _ (same b3)⟩
    · exact absurd hs hno
  | isEmptyDir r => exact hm.elim
  | _ => exact hc.elim

/-- Any other call. -/
theorem via_off {d e d' : Disk} (hq : q ≠ []) (h : Mir lk p n q m d0 d e) {c : Cmd} (hm : c.Mild p) {a : c.Ans} (hc : ¬ c.On p)
    (hI : ∀ e', Step E Faults.none c e a e' → e'.mnt n = some m) (hs : Step E Faults.none c d a d') :
    ∃ e', Step E Faults.none c e a e' ∧ Mir lk p n q m d0 d' e' := by
  cases c with
  | rand =>
    obtain ⟨h1, rfl⟩ := hs
    exact ⟨_, ⟨by rw [h.used]; exact h1, rfl⟩, mir_used hq h a⟩
  | mkdirSpace k => exact does_mir h (by rw [h.space]) (fun _ => mir_space hq h _ _) hs
  | mkdirLayer u => exact does_mir h (mir_none h u) (fun hu => mir_layer hq h u (by rintro ⟨c, hc⟩; rw [hu] at hc; cases hc) _) hs
  | isDirDiff u => exact tests_mir h (mir_diff h u) hs
  | mkdirDiff u => exact does_mir h (mir_bare h u) (fun hu => mir_layer hq h u (by rintro ⟨c, hc⟩; rw [hu] at hc; cases hc) _) hs
  | isDirLayer u => exact tests_mir h (not_congr (mir_none h u)) hs
  | mkdirMount k => exact does_mir h (by rw [h.mdir]) (fun _ => mir_mdir hq h _ _) hs
  | isDirMerged k => exact tests_mir h (by rw [h.mdir]) hs
  | mkdirMerged k =>
    rcases hs with ⟨b1, mm, b2, b3, rfl⟩ | ⟨b1, rfl, b2⟩ | ⟨b1, rfl, b2⟩
    · exact ⟨_, Or.inl ⟨b1, mm, by rw [h.mdir]; exact b2, b3, rfl⟩, mir_mdir hq h _ _⟩
    · exact ⟨e, Or.inr (Or.inl ⟨b1, rfl, by rw [h.mdir]; exact b2⟩), h⟩
    · exact ⟨e, Or.inr (Or.inr ⟨b1, rfl, by rw [h.mdir]; exact b2⟩), h⟩
  | isDirWork k => exact tests_mir h (by rw [h.mdir]) hs
  | mkdirWork k =>
    rcases hs with ⟨b1, mm, b2, b3, rfl⟩ | ⟨b1, rfl, b2⟩ | ⟨b1, rfl, b2⟩
    · exact ⟨_, Or.inl ⟨b1, mm, by rw [h.mdir]; exact b2, b3, rfl⟩, mir_mdir hq h _ _⟩
    · exact ⟨e, Or.inr (Or.inl ⟨b1, rfl, by rw [h.mdir]; exact b2⟩), h⟩
    · exact ⟨e, Or.inr (Or.inr ⟨b1, rfl, by rw [h.mdir]; exact b2⟩), h⟩
  | mountOverlay k u ls =>
    have hP : ((∃ m c, e.mdir k = some m ∧ m.merged = some c ∧ m.work = true) ∧ (∀ v ∈ u :: ls, e.HasDiff v) ∧ E.Fits ls.length) ↔
        ((∃ m c, d.mdir k = some m ∧ m.merged = some c ∧ m.work = true) ∧ (∀ v ∈ u :: ls, d.HasDiff v) ∧ E.Fits ls.length) := by
      rw [h.mdir]; simp only [mir_diff h]
    rcases hs with ⟨b1, b2, rfl⟩ | ⟨b1, b2, rfl⟩
    · have hs' : Step E Faults.none (.mountOverlay k u ls) e a (e.setMnt k (some ⟨u, ls⟩)) := Or.inl ⟨b1, hP.2 b2, rfl⟩
      exact ⟨_, hs', mir_mnt hq h _ _ (hI _ hs')⟩
    · exact ⟨e, Or.inr ⟨b1, b2.imp (fun x y => x (hP.1 y)) fun x => x, rfl⟩, h⟩
  | chownMerged k =>
    simp only [Step] at hs ⊢
    rw [h.mnt, h.mdir]
    cases hk : d.mnt k with
    | some m' =>
      simp only [hk] at hs ⊢
      exact does_mir h Iff.rfl (fun _ => mir_chown hq h _ _) hs
    | none =>
      simp only [hk] at hs ⊢
      cases hj : d.mdir k with
      | none =>
        simp only [hj] at hs ⊢
        obtain ⟨b1, rfl⟩ := hs
        exact ⟨e, ⟨b1, rfl⟩, h⟩
      | some md =>
        obtain ⟨mg, wk⟩ := md
        cases mg with
        | none =>
          simp only [hj] at hs ⊢
          obtain ⟨b1, rfl⟩ := hs
          exact ⟨e, ⟨b1, rfl⟩, h⟩
        | some c =>
          simp only [hj] at hs ⊢
          exact does_mir h Iff.rfl (fun _ => mir_mdir hq h _ _) hs
  | sys k => exact does_mir h Iff.rfl (fun _ => h) hs
  | exists_ r => exact absurd hm hc
  | isEmptyDir r => exact hm.elim
  | isSymlink r =>
    obtain ⟨rfl, hs⟩ := hs
    exact ⟨e, ⟨rfl, by rw [h.user r hc]; exact hs⟩, h⟩
  | readlink r =>
    obtain ⟨rfl, hs⟩ := hs
    exact ⟨e, ⟨rfl, by rw [h.user r hc]; exact hs⟩, h⟩
  | remove r => exact absurd hm hc
  | symlink t r => exact absurd hm hc
  | lchown r => exact absurd hm hc
  | umount k => exact hm.elim
  | removeAllMount k => exact hm.elim
  | removeInfo k =>
    rcases hs with ⟨b1, b2, rfl⟩ | ⟨b1, b2, rfl⟩ | ⟨b1, b2, rfl⟩
    · exact ⟨_, Or.inl ⟨b1, by rw [h.info]; exact b2, rfl⟩, mir_info hq h _ _⟩
    · exact ⟨e, Or.inr (Or.inl ⟨b1, by rw [h.info]; exact b2, rfl⟩), h⟩
    · exact ⟨e, Or.inr (Or.inr ⟨b1, b2, rfl⟩), h⟩
  | readInfo k =>
    obtain ⟨rfl, hs⟩ := hs
    exact ⟨e, ⟨rfl, by rw [h.info]; exact hs⟩, h⟩
  | truncInfo k => exact does_mir h Iff.rfl (fun _ => mir_info hq h _ _) hs
  | writeInfo k b =>
    simp only [Step] at hs ⊢
    rw [h.info]
    cases hk : d.info k with
    | none =>
      simp only [hk] at hs ⊢
      obtain ⟨rfl, hs⟩ := hs
      exact ⟨e, ⟨rfl, hs⟩, h⟩
    | some old =>
      simp only [hk] at hs ⊢
      rcases hs with ⟨b1, rfl⟩ | ⟨b1, b2, x, b3, rfl⟩
      · exact ⟨_, Or.inl ⟨b1, rfl⟩, mir_info hq h _ _⟩
      · exact ⟨_, Or.inr ⟨b1, b2, x, b3, rfl⟩, mir_info hq h _ _⟩
  | readTree k =>
    obtain ⟨rfl, hs⟩ := hs
    exact ⟨e, ⟨rfl, by rw [h.space]; exact hs⟩, h⟩
  | truncTree k => exact does_mir h (by rw [h.space]) (fun _ => mir_space hq h _ _) hs
  | writeTree k b =>
    simp only [Step] at hs ⊢
    rw [h.space]
    cases hk : d.space k with
    | none =>
      simp only [hk] at hs ⊢
      obtain ⟨rfl, hs⟩ := hs
      exact ⟨e, ⟨rfl, hs⟩, h⟩
    | some y =>
      cases y with
      | none =>
        simp only [hk] at hs ⊢
        obtain ⟨rfl, hs⟩ := hs
        exact ⟨e, ⟨rfl, hs⟩, h⟩
      | some old =>
        simp only [hk] at hs ⊢
        rcases hs with ⟨b1, rfl⟩ | ⟨b1, b2, x, b3, rfl⟩
        · exact ⟨_, Or.inl ⟨b1, rfl⟩, mir_space hq h _ _⟩
        · exact ⟨_, Or.inr ⟨b1, b2, x, b3, rfl⟩, mir_space hq h _ _⟩
  | dump s =>
    obtain ⟨rfl, hs⟩ := hs
    exact ⟨e, ⟨rfl, hs⟩, h⟩

/-- Every run by way of the other workspace is matched by a run on a path of its own, as long as that keeps the mount. -/
theorem via_exec (hoff : E.Off p) (hq : q ≠ []) {x : Prog α} (hm : MildP p x) {I : Disk → Prop} (hI : ∀ y, I y → y.mnt n = some m) {Q : α → Disk → Prop}
    {d e d' : Disk} {a : α} (h : Mir lk p n q m d0 d e) (hw : wp E Faults.none I x Q e) (he : ExecVia E lk p n q x d a d') :
    ∃ e', Exec E Faults.none x e a e' ∧ Mir lk p n q m d0 d' e' ∧ Q a e' := by
  induction he generalizing e with
  | ret a d => exact ⟨e, .ret _ _, h, hw⟩
  | @op c k d d1 d2 y a hs _ ih =>
    have : ∃ e', Step E Faults.none c e y e' ∧ Mir lk p n q m d0 d1 e' := by
      by_cases hc : c.On p
      · obtain ⟨e1, h1, h2⟩ := hs.1 hc
        exact via_on hoff h hm.1 hc h1 h2
      · exact via_off hq h hm.1 hc (fun e' h' => hI _ (hw _ _ h').1) (hs.2 hc)
    obtain ⟨e1, h1, h2⟩ := this
    obtain ⟨e', h3, h4, h5⟩ := ih (hm.2 _) h2 (hw _ _ h1).2
    exact ⟨e', .op h1 h3, h4, h5⟩

/-! ## The commands -/

/-- The program does not use the path. -/
def OffP (p : Str) : Prog α → Prop
  | .ret _ => True
  | .op c k => ¬ c.On p ∧ ∀ x, OffP p (k x)

theorem via_offP {x : Prog α} (hx : OffP p x) {d d' : Disk} {a : α} (h : ExecVia E lk p n q x d a d') : Exec E Faults.none x d a d' := by
  induction h with
  | ret a d => exact .ret _ _
  | op hs _ ih => exact .op (hs.2 hx.1) (ih (hx.2 _))

theorem offP_via {x : Prog α} (hx : OffP p x) {d d' : Disk} {a : α} (h : Exec E Faults.none x d a d') : ExecVia E lk p n q x d a d' := by
  induction h with
  | ret a d => exact .ret _ _
  | op hs _ ih => exact .op ⟨fun hc => absurd hc hx.1, fun _ => hs⟩ (ih (hx.2 _))

theorem removeMount_off (o : MountObj) : OffP (α := Res CErr Unit) p (removeMount o) := by
  unfold removeMount
  refine ⟨fun h => h, fun a => ?_⟩
  cases a
  · exact trivial
  refine ⟨fun h => h, fun a => ?_⟩
  cases a
  · exact trivial
  refine ⟨fun h => h, fun a => ⟨fun h => h, fun a => ?_⟩⟩
  cases a
  · exact trivial
  refine ⟨fun h => h, fun a => ?_⟩
  cases a
  · exact ⟨fun h => h, fun a => by cases a <;> trivial⟩
  · exact ⟨fun h => h, fun a => by cases a <;> trivial⟩
  · exact trivial

theorem removeMount_only {o : MountObj} (ho : o.dir = o.id.base32) {d d' : Disk} {r : Res CErr Unit} (h : Exec E Faults.none (removeMount o) d r d') :
    r = .ok () ∧ d' = removed o.id.base32 d := by
  have hrm := wpm_exec (removeMount_wp (E := E) (f := Faults.none) (d := d) (m := o) ho) h
  cases r with
  | panic => exact hrm.elim
  | diverge => exact hrm.elim
  | err e =>
    rcases hrm.2.2 with h | ⟨h, _⟩
    · cases h
    · cases h
  | ok x => exact ⟨rfl, hrm⟩

theorem removeMount_runs {o : MountObj} (ho : o.dir = o.id.base32) (d : Disk) : Exec E Faults.none (removeMount o) d (.ok ()) (removed o.id.base32 d) := by
  have key : ∃ r d', Exec E Faults.none (removeMount o) d r d' := by
    unfold removeMount
    rw [ho]
    have h3 : ∀ d1 : Disk, d1.mnt o.id.base32 = none → ∃ r d', Exec E Faults.none (do
        need (← ask (.removeAllMount o.id.base32)) .removeData
        match ← ask (.removeInfo o.id.base32) with
        | .fail => fail .removeInfo
        | _ => need (← ask (.sys .chdirBack)) .cwd : M Unit) d1 r d' := by
      intro d1 h1
      have hs : Step E Faults.none (.removeAllMount o.id.base32) d1 true (d1.setMdir o.id.base32 none) := by
        simp only [Step, h1]; exact Or.inl ⟨trivial, trivial⟩
      have hb : ∀ d2 : Disk, Step E Faults.none (.sys .chdirBack) d2 true d2 := fun d2 => Or.inl ⟨rfl, trivial, rfl⟩
      cases h2 : d1.info o.id.base32 with
      | none =>
        exact ⟨_, _, .op hs (.op (c := .removeInfo o.id.base32) (x := .notExist) (Or.inr (Or.inl ⟨rfl, h2, rfl⟩)) (.op (hb _) (.ret _ _)))⟩
      | some x =>
        exact ⟨_, _, .op hs (.op (c := .removeInfo o.id.base32) (x := .ok) (Or.inl ⟨rfl, by show d1.info _ ≠ none; rw [h2]; simp, rfl⟩) (.op (hb _) (.ret _ _)))⟩
    have hx : ∃ (a : Bool) (d1 : Disk), Step E Faults.none (.umount o.id.base32) d a d1 ∧ d1.mnt o.id.base32 = none := by
      by_cases h : d.mnt o.id.base32 = none
      · exact ⟨false, d, Or.inr ⟨rfl, rfl, Or.inl h⟩, h⟩
      · exact ⟨true, _, Or.inl ⟨rfl, h, rfl⟩, upd_self _ _ _⟩
    obtain ⟨a, d1, h1, h2⟩ := hx
    obtain ⟨r, d', h4⟩ := h3 d1 h2
    exact ⟨r, d', .op (c := .sys .getwd) (x := true) (Or.inl ⟨rfl, trivial, rfl⟩) (.op (c := .sys .chdirRoot) (x := true) (Or.inl ⟨rfl, trivial, rfl⟩) (.op h1 h4))⟩
  obtain ⟨r, d', h⟩ := key
  obtain ⟨rfl, rfl⟩ := removeMount_only ho h
  exact h

theorem mir_removed {d e : Disk} (hq : q ≠ []) (h : Mir lk p n q m d0 d e) {k : Str} (hk : k ≠ n) : Mir lk p n q m d0 (removed k d) (removed k e) :=
  mir_info hq (mir_mdir hq (mir_mnt hq h k none (by show upd e.mnt k none n = _; rw [upd_ne _ _ (Ne.symm hk), h.mnt]; exact h.mounted)) k none) k none

theorem relink_mild {w : OpenWs} (h : w.ws.path = p) : MildP (α := Res CErr Unit) p (relink E w) := by
  have tail : MildP (α := Res CErr Unit) p (do
      need (← ask (.symlink (E.mountPath w.mount.dir) w.ws.path)) .symlink
      need (← ask (.lchown w.ws.path)) .symlink
      need (← ask (.sys .chdirBack)) .cwd : M Unit) := by
    refine ⟨h, fun a => ?_⟩
    cases a
    · exact trivial
    refine ⟨h, fun a => ?_⟩
    cases a
    · exact trivial
    exact ⟨trivial, fun a => by cases a <;> exact trivial⟩
  unfold relink
  refine ⟨trivial, fun a => ?_⟩
  cases a
  · exact trivial
  refine ⟨trivial, fun a => ?_⟩
  cases a
  · exact trivial
  refine ⟨h, fun a => ?_⟩
  cases a
  · exact tail
  refine ⟨h, fun a => ?_⟩
  cases a
  · exact trivial
  · exact tail

theorem mild_bind {x : Prog α} {g : α → Prog β} (h : MildP p x) (h' : ∀ a, MildP p (g a)) : MildP p (x.bind g) := by
  induction x with
  | ret a => exact h' a
  | op c k ih => exact ⟨h.1, fun y => ih y (h.2 y)⟩

theorem expand_mild {w : OpenWs} (h : w.ws.path = p) : MildP (α := Res CErr Unit) p (expand E w) := by
  rw [expand_eq]
  refine mild_bind (mild_of_calm (A := fun _ => False) (mountP_calms _)) fun r => ?_
  cases r with
  | ok a => exact relink_mild h
  | _ => trivial

/-- `commit` and `checkout`. -/
theorem via_cmd (hoff : E.Off p) (hq : q ≠ []) {cwd : Str} {w : OpenWs} {u pu : UID} {d e : Disk} (h : Mir lk p n q m d0 d e) (ho : Opens E e cwd (lit ".") w u pu) (hp : w.ws.path = p)
    (hne : w.mount.id.base32 ≠ n) {y : OpenWs → M OpenWs} (hy : ∀ w, Calms (fun _ => False) (y w))
    (hyp : ∀ w' e', Exec E Faults.none (y w) e (.ok w') e' → w'.ws.path = w.ws.path) {I : Disk → Prop} (hI : ∀ z, I z → z.mnt n = some m)
    {Q : Res CErr (OpenWs × OpenWs) → Disk → Prop} {x : M (OpenWs × OpenWs)}
    (hx : x = (getWorkspace E cwd (lit ".") >>= fun w => y w >>= fun w' => expand E w' >>= fun _ => removeMount w.mount >>= fun _ => Pure.pure (w, w') : M (OpenWs × OpenWs)))
    (hw : wp E Faults.none I (α := Res CErr (OpenWs × OpenWs)) x Q e) {r : Res CErr (OpenWs × OpenWs)} {d' : Disk}
    (he : ExecVia (α := Res CErr (OpenWs × OpenWs)) E lk p n q x d r d') : ∃ e', Exec E Faults.none x e r e' ∧ Mir lk p n q m d0 d' e' := by
  subst hx
  obtain ⟨z, d1, h1, he⟩ := execVia_bind he
  have hw := wp_bind.1 hw
  obtain ⟨e1, g1, k1, hw1⟩ := via_exec hoff hq (mild_of_calm (A := fun _ => True) (getWorkspace_calms E cwd (lit ".") trivial)) hI h hw h1
  have hz := wpm_exec (getWorkspace_wp ho) g1
  cases z with
  | panic => exact hz.elim
  | diverge => exact hz.elim
  | err er => cases he; exact ⟨e1, exec_trans g1 (.ret _ _), k1⟩
  | ok w1 =>
    obtain ⟨rfl, rfl⟩ := hz
    have he : ExecVia (α := Res CErr (OpenWs × OpenWs)) E lk p n q (y w1 >>= fun w' => expand E w' >>= fun _ => removeMount w1.mount >>= fun _ => Pure.pure (w1, w') : M (OpenWs × OpenWs)) d1 r d' := he
    have hw : wp E Faults.none I (α := Res CErr (OpenWs × OpenWs)) (y w1 >>= fun w' => expand E w' >>= fun _ => removeMount w1.mount >>= fun _ => Pure.pure (w1, w') : M (OpenWs × OpenWs)) Q e1 := hw1
    obtain ⟨z, d2, h2, he⟩ := execVia_bind he
    have hw := wp_bind.1 hw
    obtain ⟨e2, g2, k2, hw2⟩ := via_exec hoff hq (mild_of_calm (hy w1)) hI k1 hw h2
    cases z with
    | panic => cases he; exact ⟨e2, exec_trans g1 (exec_trans (α := Res CErr OpenWs) g2 (.ret _ _)), k2⟩
    | diverge => cases he; exact ⟨e2, exec_trans g1 (exec_trans (α := Res CErr OpenWs) g2 (.ret _ _)), k2⟩
    | err er => cases he; exact ⟨e2, exec_trans g1 (exec_trans (α := Res CErr OpenWs) g2 (.ret _ _)), k2⟩
    | ok w' =>
      have hp' : w'.ws.path = p := by rw [hyp _ _ g2]; exact hp
      have he : ExecVia (α := Res CErr (OpenWs × OpenWs)) E lk p n q (expand E w' >>= fun _ => removeMount w1.mount >>= fun _ => Pure.pure (w1, w') : M (OpenWs × OpenWs)) d2 r d' := he
      have hw : wp E Faults.none I (α := Res CErr (OpenWs × OpenWs)) (expand E w' >>= fun _ => removeMount w1.mount >>= fun _ => Pure.pure (w1, w') : M (OpenWs × OpenWs)) Q e2 := hw2
      obtain ⟨z, d3, h3, he⟩ := execVia_bind he
      have hw := wp_bind.1 hw
      obtain ⟨e3, g3, k3, hw⟩ := via_exec hoff hq (expand_mild hp') hI k2 hw h3
      have up : ∀ {e4 : Disk}, Exec E Faults.none (α := Res CErr (OpenWs × OpenWs)) (expand E w' >>= fun _ => removeMount w1.mount >>= fun _ => Pure.pure (w1, w') : M (OpenWs × OpenWs)) e2 r e4 →
          Exec E Faults.none (α := Res CErr (OpenWs × OpenWs)) (getWorkspace E cwd (lit ".") >>= fun w => y w >>= fun w' => expand E w' >>= fun _ => removeMount w.mount >>= fun _ => Pure.pure (w, w') : M (OpenWs × OpenWs)) e1 r e4 :=
        fun hh => exec_trans g1 (exec_trans (α := Res CErr OpenWs) g2 hh)
      cases z with
      | panic => cases he; exact ⟨e3, up (exec_trans (α := Res CErr Unit) g3 (.ret _ _)), k3⟩
      | diverge => cases he; exact ⟨e3, up (exec_trans (α := Res CErr Unit) g3 (.ret _ _)), k3⟩
      | err er => cases he; exact ⟨e3, up (exec_trans (α := Res CErr Unit) g3 (.ret _ _)), k3⟩
      | ok _ =>
        have he : ExecVia (α := Res CErr (OpenWs × OpenWs)) E lk p n q (removeMount w1.mount >>= fun _ => Pure.pure (w1, w') : M (OpenWs × OpenWs)) d3 r d' := he
        obtain ⟨z, d4, h4, he⟩ := execVia_bind he
        have hdm : w1.mount.dir = w1.mount.id.base32 := by rw [ho.mount]
        obtain ⟨rfl, rfl⟩ := removeMount_only hdm (via_offP (removeMount_off _) h4)
        cases he
        refine ⟨_, up (exec_trans (α := Res CErr Unit) g3 (exec_trans (α := Res CErr Unit) (removeMount_runs hdm e3) (.ret _ _))), mir_removed hq k3 hne⟩

/-! ## There are such runs -/

theorem put_self {d : Disk} {u : UID} : d.put u (d.content u) = d := by
  unfold Disk.put
  split
  · rename_i c hc
    obtain ⟨l, _, _, _, _, _, _⟩ := d
    simp only [Disk.setLayer, Disk.mk.injEq, and_true]
    funext v
    by_cases hv : v = u
    · subst hv
      have : l v = some (some c) := hc
      rw [upd_self, this]
      simp [Disk.content, this]
    · rw [upd_ne _ _ hv]
  · rfl

theorem mirrored_same {d : Disk} (hm : d.mnt n = some m) {e : Disk} (he : e = d.seen lk p n q) : Mirrored lk p n q d e d :=
  ⟨m, d.content m.upper, hm, put_self.symm, fun _ _ => rfl, by subst he; exact (upd_self _ _ _).symm⟩

/-- Every call on the path can be answered, if the path leads to the top of the mount. -/
theorem via_on_total {y : Str} {d : Disk} (hm : d.mnt n = some m) (hu : d.HasDiff m.upper) (hn : m.upper ∉ m.lowers) (hlk : ∀ t, ∃ data, lk data = some t) (hoff : E.Off p)
    {c : Cmd} (hc : c.On p) {a : c.Ans} {e : Disk} (hs : Step E Faults.none c (d.seen lk p n [y]) a e) : ∃ d', Mirrored lk p n [y] d e d' := by
  have hno : ¬ ∃ k, E.Inside p k := fun ⟨k, hk⟩ => hoff k hk
  have same : e = d.seen lk p n [y] → ∃ d', Mirrored lk p n [y] d e d' := fun h => ⟨d, mirrored_same hm h⟩
  have hsu : (d.seen lk p n [y]).user p = d.entryAt lk n [y] := upd_self _ _ _
  have hv : ∀ r, d.shows n r = view (d.content m.upper :: m.lowers.map d.content) r := fun r => by simp only [Disk.shows, hm, List.map_cons]
  have hset : ∀ z, e = (d.seen lk p n [y]).setUser p z → e.user p = z := by rintro z rfl; exact upd_self _ _ _
  have swap : ∀ en : Ent, (∀ o a, en ≠ .dir o a) → (∀ z, d.shows n [z, y] = none) → ∀ r, (d.put m.upper (upd (d.content m.upper) [y] (some en))).shows n r =
      if r = [y] then (match en with | .file b => some (.file b) | _ => none) else d.shows n r := by
    intro en he hemp r
    rw [shown_put hm hu hn, view_swap _ _ _ he (fun z => by rw [← hv]; exact hemp z), hv]
    split
    · cases en with
      | file b => rfl
      | whiteout => rfl
      | dir o a => exact absurd rfl (he o a)
    · rfl
  have below : (∀ at', d.shows n [y] ≠ some (.dir at')) → ∀ z, d.shows n [z, y] = none := by
    intro h z
    by_cases h1 : d.shows n [z, y] = none
    · exact h1
    · rw [hv] at h1
      obtain ⟨a, ha⟩ := view_parent h1
      exact absurd ((hv _).trans ha) (h a)
  cases c with
  | exists_ r => exact same hs.1
  | isEmptyDir r => exact same hs.1
  | isSymlink r => exact same hs.1
  | readlink r => exact same hs.1
  | lchown r =>
    obtain rfl : r = p := hc
    rcases hs with ⟨_, ⟨_, _, h⟩ | ⟨_, _, h⟩⟩ | ⟨h, _⟩
    · exact same h
    · exact same h
    · exact absurd h hno
  | remove r =>
    obtain rfl : r = p := hc
    rcases hs with ⟨_, ⟨_, h1, h⟩ | ⟨_, _, h⟩⟩ | ⟨h, _⟩
    · have hemp : ∀ z, d.shows n [z, y] = none := by
        rw [hsu] at h1
        by_cases hd : ∃ at', d.shows n [y] = some (.dir at')
        · obtain ⟨a', hd⟩ := hd
          simp only [Disk.entryAt, hd] at h1
          by_cases hx : ∀ x, d.shows n [x, y] = none
          · exact hx
          · rw [if_neg hx] at h1
            rcases h1 with h1 | h1 | ⟨t, h1⟩ <;> cases h1
        · exact below fun a' ha => hd ⟨a', ha⟩
      have s1 := swap .whiteout (by simp) hemp
      refine ⟨_, m, _, hm, rfl, fun r hr => by rw [s1, if_neg hr], ?_⟩
      rw [hset _ h]
      have := s1 [y]
      rw [if_pos rfl] at this
      simp only [Disk.entryAt, this]
      exact if_pos (Or.inl rfl)
    · exact same h
    · exact absurd h hno
  | symlink t r =>
    obtain rfl : r = p := hc
    rcases hs with ⟨_, ⟨_, h1, h⟩ | ⟨_, _, h⟩⟩ | ⟨h, _⟩
    · have hemp : ∀ z, d.shows n [z, y] = none := by
        refine below fun a' ha => ?_
        rw [hsu] at h1
        simp only [Disk.entryAt, ha] at h1
        split at h1 <;> cases h1
      obtain ⟨data, hdata⟩ := hlk t
      have s1 := swap (.file data) (by simp) hemp
      refine ⟨_, m, _, hm, rfl, fun r hr => by rw [s1, if_neg hr], ?_⟩
      rw [hset _ h]
      have := s1 [y]
      rw [if_pos rfl] at this
      simp only [Disk.entryAt, this, hdata]
    · exact same h
    · exact absurd h hno
  | _ => exact hc.elim

theorem via_total (hoff : E.Off p) {y : Str} (hn : m.upper ∉ m.lowers) (hlk : ∀ t, ∃ data, lk data = some t) {x : Prog α} {k : Nat} (hdr : Draws x k) (hm : MildP p x)
    {I : Disk → Prop} (hI : ∀ y, I y → y.mnt n = some m) {Q : α → Disk → Prop} {d e : Disk} (h : Mir lk p n [y] m d0 d e) (hw : wp E Faults.none I x Q e)
    (hused : e.used.length + k < 2 ^ 128) : ∃ a d' e', ExecVia E lk p n [y] x d a d' ∧ Exec E Faults.none x e a e' ∧ Mir lk p n [y] m d0 d' e' ∧ Q a e' := by
  have one : ∀ {c : Cmd} {d e : Disk}, Mir lk p n [y] m d0 d e → c.Mild p → (∀ a e', Step E Faults.none c e a e' → e'.mnt n = some m) → e.used.length < 2 ^ 128 →
      ∃ a d' e', StepVia E lk p n [y] c d a d' ∧ Step E Faults.none c e a e' ∧ Mir lk p n [y] m d0 d' e' := by
    intro c d e h hm hI hused
    have hfr : ∃ u, u ∉ d.used ∨ Faults.none.rep = true := by
      obtain ⟨u, hu⟩ := fresh_exists e.used hused
      exact ⟨u, Or.inl (by rw [← h.used]; exact hu)⟩
    by_cases hc : c.On p
    · obtain ⟨a, e1, hs⟩ := step_total E Faults.none c (d.seen lk p n [y]) hfr
      obtain ⟨d', hd'⟩ := via_on_total h.mounted h.top.1 hn hlk hoff hc hs
      obtain ⟨e', h1, h2⟩ := via_on hoff h hm hc hs hd'
      exact ⟨a, d', e', ⟨fun _ => ⟨e1, hs, hd'⟩, fun h => absurd hc h⟩, h1, h2⟩
    · obtain ⟨a, d', hs⟩ := step_total E Faults.none c d hfr
      obtain ⟨e', h1, h2⟩ := via_off (by simp) h hm hc (fun e' => hI a e') hs
      exact ⟨a, d', e', ⟨fun h => absurd h hc, fun _ => hs⟩, h1, h2⟩
  induction hdr generalizing d e with
  | ret => exact ⟨_, d, e, .ret _ _, .ret _ _, h, hw⟩
  | rand _ ih =>
    obtain ⟨a, d', e', h1, h2, h3⟩ := one h hm.1 (fun a e' hs => hI _ (hw a e' hs).1) (by omega)
    obtain ⟨b, d2, e2, g1, g2, g3, g4⟩ := ih a (hm.2 a) h3 (hw a e' h2).2 (by rw [h2.2]; simp; omega)
    exact ⟨b, d2, e2, .op h1 g1, .op h2 g2, g3, g4⟩
  | op hc _ ih =>
    obtain ⟨a, d', e', h1, h2, h3⟩ := one h hm.1 (fun a e' hs => hI _ (hw a e' hs).1) (by omega)
    obtain ⟨b, d2, e2, g1, g2, g3, g4⟩ := ih a (hm.2 a) h3 (hw a e' h2).2 (by rw [(step_used h2).2 hc]; exact hused)
    exact ⟨b, d2, e2, .op h1 g1, .op h2 g2, g3, g4⟩

/-- `commit` and `checkout` come to an end. -/
theorem via_cmd_total (hoff : E.Off p) {y0 : Str} (hn : m.upper ∉ m.lowers) (hlk : ∀ t, ∃ data, lk data = some t) {cwd : Str} {w : OpenWs} {u pu : UID} {d e : Disk}
    (h : Mir lk p n [y0] m d0 d e) (ho : Opens E e cwd (lit ".") w u pu) (hp : w.ws.path = p) {y : OpenWs → M OpenWs} (hy : ∀ w, Calms (fun _ => False) (y w)) {k : Nat}
    (hdr : ∀ w, Draws (α := Res CErr OpenWs) (y w) k) (hused : e.used.length + k < 2 ^ 128)
    (hyp : ∀ w' e', Exec E Faults.none (y w) e (.ok w') e' → w'.ws.path = w.ws.path) {I : Disk → Prop} (hI : ∀ z, I z → z.mnt n = some m)
    {Q : Res CErr (OpenWs × OpenWs) → Disk → Prop} {x : M (OpenWs × OpenWs)}
    (hx : x = (getWorkspace E cwd (lit ".") >>= fun w => y w >>= fun w' => expand E w' >>= fun _ => removeMount w.mount >>= fun _ => Pure.pure (w, w') : M (OpenWs × OpenWs)))
    (hw : wp E Faults.none I (α := Res CErr (OpenWs × OpenWs)) x Q e) : ∃ r d', ExecVia (α := Res CErr (OpenWs × OpenWs)) E lk p n [y0] x d r d' := by
  subst hx
  have hw := wp_bind.1 hw
  obtain ⟨z, d1, e1, h1, g1, k1, hw1⟩ := via_total hoff hn hlk (getWorkspace_draws E cwd (lit ".")) (mild_of_calm (A := fun _ => True) (getWorkspace_calms E cwd (lit ".") trivial)) hI h hw (by omega)
  have hz := wpm_exec (getWorkspace_wp ho) g1
  cases z with
  | panic => exact hz.elim
  | diverge => exact hz.elim
  | err er => exact ⟨_, _, execVia_trans h1 (.ret _ _)⟩
  | ok w1 =>
    obtain ⟨rfl, rfl⟩ := hz
    have hw : wp E Faults.none I (α := Res CErr (OpenWs × OpenWs)) (y w1 >>= fun w' => expand E w' >>= fun _ => removeMount w1.mount >>= fun _ => Pure.pure (w1, w') : M (OpenWs × OpenWs)) Q e1 := hw1
    have hw := wp_bind.1 hw
    obtain ⟨z, d2, e2, h2, g2, k2, hw2⟩ := via_total hoff hn hlk (hdr w1) (mild_of_calm (hy w1)) hI k1 hw hused
    have hu2 := exec_used (hdr w1) g2
    cases z with
    | panic => exact ⟨_, _, execVia_trans h1 (execVia_trans (α := Res CErr OpenWs) h2 (.ret _ _))⟩
    | diverge => exact ⟨_, _, execVia_trans h1 (execVia_trans (α := Res CErr OpenWs) h2 (.ret _ _))⟩
    | err er => exact ⟨_, _, execVia_trans h1 (execVia_trans (α := Res CErr OpenWs) h2 (.ret _ _))⟩
    | ok w' =>
      have hp' : w'.ws.path = p := by rw [hyp _ _ g2]; exact hp
      have hw : wp E Faults.none I (α := Res CErr (OpenWs × OpenWs)) (expand E w' >>= fun _ => removeMount w1.mount >>= fun _ => Pure.pure (w1, w') : M (OpenWs × OpenWs)) Q e2 := hw2
      have hw := wp_bind.1 hw
      obtain ⟨z, d3, e3, h3, g3, k3, hw3⟩ := via_total hoff hn hlk (expand_draws E w') (expand_mild hp') hI k2 hw (by omega)
      have up : ∀ {r : Res CErr (OpenWs × OpenWs)} {d4 : Disk}, ExecVia E lk p n [y0] (α := Res CErr (OpenWs × OpenWs)) (expand E w' >>= fun _ => removeMount w1.mount >>= fun _ => Pure.pure (w1, w') : M (OpenWs × OpenWs)) d2 r d4 →
          ExecVia E lk p n [y0] (α := Res CErr (OpenWs × OpenWs)) (getWorkspace E cwd (lit ".") >>= fun w => y w >>= fun w' => expand E w' >>= fun _ => removeMount w.mount >>= fun _ => Pure.pure (w, w') : M (OpenWs × OpenWs)) d r d4 :=
        fun hh => execVia_trans h1 (execVia_trans (α := Res CErr OpenWs) h2 hh)
      cases z with
      | panic => exact ⟨_, _, up (execVia_trans (α := Res CErr Unit) h3 (.ret _ _))⟩
      | diverge => exact ⟨_, _, up (execVia_trans (α := Res CErr Unit) h3 (.ret _ _))⟩
      | err er => exact ⟨_, _, up (execVia_trans (α := Res CErr Unit) h3 (.ret _ _))⟩
      | ok _ =>
        have hdm : w1.mount.dir = w1.mount.id.base32 := by rw [ho.mount]
        exact ⟨_, _, up (execVia_trans (α := Res CErr Unit) h3 (execVia_trans (α := Res CErr Unit) (offP_via (removeMount_off _) (removeMount_runs hdm d3)) (.ret _ _)))⟩

/-! ## Between the two disks -/

theorem opens_same {d e : Disk} {cwd path : Str} {w : OpenWs} {u pu : UID} (h : Opens E e cwd path w u pu) (hu : d.user (Path.abs cwd path) = e.user (Path.abs cwd path))
    (hi : d.info = e.info) (hsp : d.space = e.space) (hl : ∀ v, e.HasDiff v → d.HasDiff v) : Opens E d cwd path w u pu :=
  ⟨h.out, by rw [hu]; exact h.link, h.path, by rw [hi]; exact h.info, h.mount, h.dir, by rw [hsp]; exact h.tree, h.head, fun v hv => hl v (h.stored v hv)⟩

/-- The workspace that goes by the path. -/
theorem opens_seen {d e : Disk} (h : Mir lk p n q m d0 d e) (hp : Path.abs p (lit ".") = p) {w : OpenWs} {u pu : UID} (ho : Opens E e p (lit ".") w u pu) :
    Opens E (d.seen lk p n q) p (lit ".") w u pu :=
  opens_same ho (by rw [hp, h.seen]; exact upd_self _ _ _) h.info.symm h.space.symm fun v hv => (mir_diff h v).1 hv

/-- Any other workspace. -/
theorem opens_beside {d e : Disk} (h : Mir lk p n q m d0 d e) {cwd path : Str} (hp : Path.abs cwd path ≠ p) {w : OpenWs} {u pu : UID} (ho : Opens E e cwd path w u pu) :
    Opens E d cwd path w u pu :=
  opens_same ho (h.user _ hp).symm h.info.symm h.space.symm fun v hv => (mir_diff h v).1 hv

theorem mir_content {d e : Disk} (h : Mir lk p n q m d0 d e) {v : UID} (hv : v ≠ m.upper) : e.content v = d.content v := by
  simp only [Disk.content, h.layer v hv]

/-- What a user can do to the files makes the one disk from the other. -/
theorem mir_eq {d e : Disk} (h : Mir lk p n q m d0 d e) : d = { e.put m.upper (d.content m.upper) with user := d.user } := by
  obtain ⟨a1, a2, a3, a4, a5, a6⟩ := put_rest e m.upper (d.content m.upper)
  have hl : d.layer = (e.put m.upper (d.content m.upper)).layer := by
    funext v
    by_cases hv : v = m.upper
    · subst hv
      obtain ⟨⟨c, hc⟩, c', hc'⟩ := h.top
      simp only [Disk.put, hc', Disk.setLayer, upd_self, Disk.content, hc]
      rfl
    · rw [(put_layer _ _ _ _).resolve_right fun x => hv x.1, h.layer v hv]
  have e1 : d.space = (e.put m.upper (d.content m.upper)).space := by rw [a1, h.space]
  have e2 : d.mdir = (e.put m.upper (d.content m.upper)).mdir := by rw [a2, h.mdir]
  have e3 : d.info = (e.put m.upper (d.content m.upper)).info := by rw [a3, h.info]
  have e4 : d.mnt = (e.put m.upper (d.content m.upper)).mnt := by rw [a4, h.mnt]
  have e6 : d.used = (e.put m.upper (d.content m.upper)).used := by rw [a6, h.used]
  show d = ⟨_, _, _, _, _, d.user, _⟩
  rw [← hl, ← e1, ← e2, ← e3, ← e4, ← e6]

theorem mir_reachable {d e : Disk} (h : Mir lk p n q m d0 d e) (he : Reachable E e) : Reachable E d := by
  rw [mir_eq h]
  exact reachable_next (reachable_next he (f := Faults.none) rfl (a := .write n _) trivial (.write (by rw [h.mnt]; exact h.mounted))) (f := Faults.none) rfl (a := .files _) trivial .files

end
end Verif
