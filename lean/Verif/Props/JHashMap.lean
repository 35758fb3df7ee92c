import Verif.Props.JHashMapIter

/-
C64: hash maps; C65: hash sets; C66: weak hash maps.
-/
namespace Avian.JHashMap

variable {K V : Type}

/-! ### The operations of a map -/

inductive Op (K V : Type) where
  | put (k : K) (v : Option V)
  | get (k : K)
  | remove (k : K)
  | containsKey (k : K)
  | containsValue (test : Option V → Bool)
  | size
  | clear
  /-- an iteration over all entries that removes those for which `del` holds -/
  | sweep (del : K → Option V → Bool)

inductive Res (K V : Type) where
  | val (v : Option V)
  | bool (b : Bool)
  | int (i : Int)
  | unit
  | entries (es : List (K × Option V))
  deriving DecidableEq

/-- What the code does. -/
def exec (h : Helper K) (m : Map K V) : Op K V → Except Exn (Res K V × Map K V)
  | .put k v => (put h m k v).bind fun r => .ok (.val r.1, r.2)
  | .get k => (get h m k).bind fun r => .ok (.val r, m)
  | .remove k => (remove h m k).bind fun r => .ok (.val r.1, r.2)
  | .containsKey k => (containsKey h m k).bind fun r => .ok (.bool r, m)
  | .containsValue test => (containsValue m test).bind fun r => .ok (.bool r, m)
  | .size => .ok (.int m.size, m)
  | .clear => .ok (.unit, clear m)
  | .sweep del => (sweep del (m.size.toNat + 1) m (iterator m)).bind fun r => .ok (.entries r.1, r.2)

def execAll (h : Helper K) (m : Map K V) : List (Op K V) → Except Exn (List (Res K V) × Map K V)
  | [] => .ok ([], m)
  | op :: ops => (exec h m op).bind fun r => (execAll h r.2 ops).bind fun q => .ok (r.1 :: q.1, q.2)

/-! ### The specification -/

/-- The list has each entry of the map once. -/
structure IsEntries (h : Helper K) (s : Abs K V) (es : List (K × Option V)) : Prop where
  length : es.length = s.n
  keys : es.Pairwise fun a b => h.equal a.1 b.1 = false
  content : ∀ x v, s.f x = some v ↔ ∃ e ∈ es, h.equal x e.1 = true ∧ e.2 = v

/-- What the operations of a map must do. -/
inductive Spec (h : Helper K) : Abs K V → Op K V → Res K V → Abs K V → Prop where
  | put (s : Abs K V) (k : K) (v : Option V) : Spec h s (.put k v) (.val ((s.f k).bind id))
      ⟨fun x => if h.equal x k = true then some v else s.f x, if s.f k = none then s.n + 1 else s.n⟩
  | get (s : Abs K V) (k : K) : Spec h s (.get k) (.val ((s.f k).bind id)) s
  | remove (s : Abs K V) (k : K) : Spec h s (.remove k) (.val ((s.f k).bind id))
      ⟨fun x => if h.equal x k = true then none else s.f x, if s.f k = none then s.n else s.n - 1⟩
  | containsKey (s : Abs K V) (k : K) : Spec h s (.containsKey k) (.bool (s.f k).isSome) s
  | containsValue (s : Abs K V) (test : Option V → Bool) (b : Bool)
      (hb : b = true ↔ ∃ x v, s.f x = some v ∧ test v = true) : Spec h s (.containsValue test) (.bool b) s
  | size (s : Abs K V) : Spec h s .size (.int s.n) s
  | clear (s : Abs K V) : Spec h s .clear .unit ⟨fun _ => none, 0⟩
  | sweep (s s' : Abs K V) (del : K → Option V → Bool) (es : List (K × Option V)) (he : IsEntries h s es)
      (he' : IsEntries h s' (es.filter fun e => !del e.1 e.2)) : Spec h s (.sweep del) (.entries es) s'

inductive SpecAll (h : Helper K) : Abs K V → List (Op K V) → List (Res K V) → Abs K V → Prop where
  | nil (s : Abs K V) : SpecAll h s [] [] s
  | cons {s s1 s2 : Abs K V} {op r ops rs} (h1 : Spec h s op r s1) (h2 : SpecAll h s1 ops rs s2) :
      SpecAll h s (op :: ops) (r :: rs) s2

theorem cells_entries {h : Helper K} {m : Map K V} {cs : List Cell} {s : Abs K V} (g : Stands h m cs s)
    {l : List Cell} (hn : l.Nodup) (hm : ∀ c, c ∈ l ↔ c ∈ cs) :
    IsEntries h s (l.map fun c => (m.key c, m.value c)) := by
  refine ⟨?_, ?_, ?_⟩
  · rw [List.length_map, ← g.n]
    exact Nat.le_antisymm
      (List.Nodup.length_le_of_subset hn (fun c hc => (hm c).1 hc))
      (List.Nodup.length_le_of_subset g.good.nodup (fun c hc => (hm c).2 hc))
  · rw [List.pairwise_map]
    refine List.Pairwise.imp_of_mem ?_ hn
    intro c d hc hd hne
    cases he : h.equal (m.key c) (m.key d) with
    | false => rfl
    | true => exact absurd (g.good.unique c ((hm c).1 hc) d ((hm d).1 hd) he) hne
  · intro x v
    rw [g.f x v]
    constructor
    · rintro ⟨c, hc, h1, h2⟩
      exact ⟨(m.key c, m.value c), List.mem_map.2 ⟨c, (hm c).2 hc, rfl⟩, h1, h2⟩
    · rintro ⟨e, he, h1, h2⟩
      obtain ⟨c, hc, rfl⟩ := List.mem_map.1 he
      exact ⟨c, (hm c).1 hc, h1, h2⟩

theorem exec_ok {h : Helper K} (hl : h.Lawful) {m : Map K V} {cs : List Cell} {s : Abs K V}
    (g : Stands h m cs s) (op : Op K V) :
    ∃ r m' cs' s', exec h m op = .ok (r, m') ∧ Stands h m' cs' s' ∧ Spec h s op r s' := by
  cases op with
  | put k v =>
    obtain ⟨m', cs', h1, h2⟩ := put_ok hl g k v
    exact ⟨_, m', cs', _, by simp only [exec, h1, Except.bind], h2, .put s k v⟩
  | get k => exact ⟨_, m, cs, s, by simp only [exec, get_ok hl g, Except.bind], g, .get s k⟩
  | remove k =>
    obtain ⟨m', cs', h1, h2⟩ := remove_ok hl g k
    exact ⟨_, m', cs', _, by simp only [exec, h1, Except.bind], h2, .remove s k⟩
  | containsKey k =>
    exact ⟨_, m, cs, s, by simp only [exec, containsKey_ok hl g, Except.bind], g, .containsKey s k⟩
  | containsValue test =>
    obtain ⟨b, h1, h2⟩ := containsValue_ok hl g test
    exact ⟨_, m, cs, s, by simp only [exec, h1, Except.bind], g, .containsValue s test b h2⟩
  | size =>
    refine ⟨.int s.n, m, cs, s, ?_, g, .size s⟩
    simp only [exec, g.good.size, g.n]
  | clear => exact ⟨_, clear m, [], _, rfl, clear_ok g, .clear s⟩
  | sweep del =>
    have key : ∃ (rest : List Cell) (m' : Map K V) (cs' : List Cell), sweep del (m.size.toNat + 1) m (iterator m) =
          .ok (rest.map fun c => (m.key c, m.value c), m') ∧ rest.Nodup ∧ (∀ c, c ∈ rest ↔ c ∈ cs) ∧
        m'.key = m.key ∧ m'.value = m.value ∧
        (∀ c, c ∈ cs' ↔ c ∈ cs ∧ ¬ (c ∈ rest ∧ del (m.key c) (m.value c) = true)) ∧
        ∃ s', Stands h m' cs' s' := by
      cases ha : m.array with
      | none =>
        have hcs := g.good.array
        rw [ha] at hcs
        simp only [InArray] at hcs
        refine ⟨[], m, cs, ?_, by simp, by simp [hcs], rfl, rfl, by simp, s, g⟩
        simp [sweep, iterator, hasNext, ha]
      | some arr =>
        obtain ⟨ls, rest, h1, h2, h3, h4⟩ := iterator_ok g ha
        have hle : rest.length ≤ cs.length :=
          List.Nodup.length_le_of_subset h2 (fun c hc => (h3 c).1 hc)
        obtain ⟨m', cs', e1, e2, e3, e4, _, s', e6⟩ := sweep_ok hl del rest (m.size.toNat + 1) m cs s arr ls _ g h1
          (by rw [g.good.size]; omega) (fun c hc => (h3 c).1 hc) h2 h4
        exact ⟨rest, m', cs', e1, h2, h3, e2, e3, e4, s', e6⟩
    obtain ⟨rest, m', cs', e1, h2, h3, e2, e3, e4, s', e6⟩ := key
    refine ⟨_, m', cs', s', by simp only [exec, e1, Except.bind], e6,
      .sweep s s' del _ (cells_entries g h2 h3) ?_⟩
    have := cells_entries e6 (l := rest.filter fun c => !del (m.key c) (m.value c))
      (h2.filter _) (by
        intro c
        rw [e4 c, List.mem_filter, h3 c]
        constructor
        · rintro ⟨a1, a2⟩
          exact ⟨a1, fun a3 => by rw [a3.2] at a2; cases a2⟩
        · rintro ⟨a1, a2⟩
          refine ⟨a1, ?_⟩
          cases hd : del (m.key c) (m.value c) with
          | false => rfl
          | true => exact absurd ⟨a1, hd⟩ a2)
    rw [e2, e3] at this
    rw [List.filter_map]
    exact this

theorem execAll_ok {h : Helper K} (hl : h.Lawful) : ∀ (ops : List (Op K V)) {m : Map K V} {cs : List Cell}
    {s : Abs K V}, Stands h m cs s →
    ∃ rs m' cs' s', execAll h m ops = .ok (rs, m') ∧ Stands h m' cs' s' ∧ SpecAll h s ops rs s' := by
  intro ops
  induction ops with
  | nil => intro m cs s g; exact ⟨[], m, cs, s, rfl, g, .nil s⟩
  | cons op ops ih =>
    intro m cs s g
    obtain ⟨r, m1, cs1, s1, h1, h2, h3⟩ := exec_ok hl g op
    obtain ⟨rs, m2, cs2, s2, h4, h5, h6⟩ := ih h2
    exact ⟨r :: rs, m2, cs2, s2, by simp only [execAll, h1, Except.bind, h4], h5, .cons h3 h6⟩

/-- C64: whatever is done with a hash map, however its keys collide, nothing fails and every result is
that of a map. -/
theorem map_refines {h : Helper K} (hl : h.Lawful) (d : K) {capacity : Int} (hc : capacity ≤ 2 ^ 30)
    (ops : List (Op K V)) :
    ∃ m rs m' s, new d capacity = .ok m ∧ execAll h m ops = .ok (rs, m') ∧
      SpecAll h ⟨fun _ => none, 0⟩ ops rs s := by
  obtain ⟨m, h1, h2⟩ := new_ok (V := V) h d hc
  obtain ⟨rs, m', _, s, h3, _, h4⟩ := execAll_ok hl ops h2
  exact ⟨m, rs, m', s, h1, h3, h4⟩

/-- C64: the contract of `equals` and `hashCode` is enough for null keys too. -/
theorem myHelper_lawful {hashCode : K → BitVec 32} {equals : K → K → Bool}
    (h : Helper.Lawful ⟨hashCode, equals⟩) : (myHelper hashCode equals).Lawful := by
  refine ⟨?_, ?_, ?_, ?_⟩
  · intro a; cases a with
    | none => rfl
    | some a => exact h.refl a
  · intro a b; cases a <;> cases b <;> simp [myHelper]
    exact h.symm _ _
  · intro a b c; cases a <;> cases b <;> cases c <;> simp [myHelper]
    exact h.trans _ _ _
  · intro a b; cases a <;> cases b <;> simp [myHelper]
    exact h.hash _ _

/-- The entries that `putAll` puts, one by one. -/
theorem putAll_ok {h : Helper K} (hl : h.Lawful) : ∀ (es : List (K × Option V)) {m : Map K V} {cs : List Cell}
    {s : Abs K V}, Stands h m cs s →
    ∃ m' cs' s', putAll h m es = .ok m' ∧ Stands h m' cs' s' ∧
      ∀ x, s'.f x = ((es.reverse.find? fun e => h.equal x e.1).map Prod.snd).or (s.f x) := by
  intro es
  induction es with
  | nil => intro m cs s g; exact ⟨m, cs, s, rfl, g, by simp⟩
  | cons e es ih =>
    intro m cs s g
    obtain ⟨k, v⟩ := e
    obtain ⟨m1, cs1, h1, h2⟩ := put_ok hl g k v
    obtain ⟨m2, cs2, s2, h3, h4, h5⟩ := ih h2
    refine ⟨m2, cs2, s2, by simp only [putAll, h1, Except.bind, h3], h4, ?_⟩
    intro x
    rw [h5 x, List.reverse_cons, List.find?_append]
    cases es.reverse.find? (fun e => h.equal x e.1) with
    | some e => simp
    | none =>
      by_cases hx : h.equal x k = true <;> simp [hx]

/-- C64: after `putAll` (and after the constructor from another map) a key has the value of the last
entry with this key, or the one it had before. -/
theorem putAll_last {h : Helper K} (hl : h.Lawful) (es : List (K × Option V)) {m : Map K V} {cs : List Cell}
    {s : Abs K V} (g : Stands h m cs s) :
    ∃ m', putAll h m es = .ok m' ∧ ∀ x, get h m' x =
      .ok ((((es.reverse.find? fun e => h.equal x e.1).map Prod.snd).or (s.f x)).bind id) := by
  obtain ⟨m', cs', s', h1, h2, h3⟩ := putAll_ok hl es g
  exact ⟨m', h1, fun x => by rw [get_ok hl h2, h3 x]⟩

/-- C64 (limit of the code): with a capacity beyond 2^30 the constructor does not return. -/
theorem new_never (d : K) {capacity : Int} (h1 : 2 ^ 30 < capacity) :
    (new d capacity : Except Exn (Map K V)) = .error .never ∧ ∀ fuel, doubling capacity fuel 1 = none := by
  have h := doubling_never_aux h1
  refine ⟨?_, fun fuel => h fuel 1 (Or.inl ⟨0, by omega, rfl⟩)⟩
  unfold new nextPowerOfTwo
  rw [if_pos (by omega), h 34 1 (Or.inl ⟨0, by omega, rfl⟩)]

/-- Keys are numbers; those with the same last digit collide. -/
def digit : Helper Nat := ⟨fun n => BitVec.ofNat 32 (n % 10), fun a b => a == b⟩

theorem digit_lawful : digit.Lawful :=
  ⟨by simp [digit], by simp [digit], by simp [digit], by simp [digit]⟩

/-- The hypotheses are met, and something happens: collisions, replacement, growth from 1 to 4 buckets,
removal from the middle of a bucket, and an iteration that removes. -/
example : digit.Lawful ∧ (new 0 1 : Except Exn (Map Nat Nat)).toBool ∧
    (match (new 0 1 : Except Exn (Map Nat Nat)) with
      | .ok m => match execAll digit m [.put 3 (some 30), .put 13 (some 31), .put 23 (some 32), .put 13 (some 33),
          .remove 13, .get 3, .get 13, .put 4 none, .containsKey 4, .size,
          .sweep (fun k _ => k == 23), .size, .get 23] with
        | .ok r => r.1 == [.val none, .val none, .val none, .val (some 31), .val (some 33), .val (some 30),
            .val none, .val none, .bool true, .int 3, .entries [(4, none), (23, some 32), (3, some 30)],
            .int 2, .val none]
        | .error _ => false
      | .error _ => false) = true := by
  refine ⟨digit_lawful, by decide +kernel, by decide +kernel⟩

example : (new 0 (2 ^ 30 + 1) : Except Exn (Map Nat Nat)) = .error .never := (new_never 0 (by decide)).1

/-! ### Sets -/

/-- A set, as a map with one value. -/
abbrev SetStands (h : Helper K) (m : Map K Unit) (cs : List Cell) (s : Abs K Unit) : Prop :=
  Stands h m cs s ∧ ∀ x v, s.f x = some v → v = some ()

/-- C65: `add` tells whether the element is new, and afterwards the set has it, and what it had. -/
theorem setAdd_ok {h : Helper K} (hl : h.Lawful) {m : Map K Unit} {cs : List Cell} {s : Abs K Unit}
    (g : SetStands h m cs s) (k : K) :
    ∃ b m' cs' s', setAdd h m k = .ok (b, m') ∧ SetStands h m' cs' s' ∧
      containsKey h m k = .ok (!b) ∧
      (∀ x, containsKey h m' x = .ok (h.equal x k || (s.f x).isSome)) ∧
      m'.size = m.size + (if b then 1 else 0) := by
  obtain ⟨m', cs', h1, h2⟩ := put_ok hl g.1 k (some ())
  refine ⟨(s.f k).bind id != some (), m', cs', _, by simp only [setAdd, h1, Except.bind], ⟨h2, ?_⟩, ?_, ?_, ?_⟩
  · intro x v
    simp only
    split
    · intro e; cases e; rfl
    · exact g.2 x v
  · rw [containsKey_ok hl g.1]
    cases hk : s.f k with
    | none => simp
    | some v => rw [g.2 k v hk]; simp
  · intro x
    rw [containsKey_ok hl h2]
    by_cases hx : h.equal x k = true <;> simp [hx]
  · rw [h2.good.size, h2.n, g.1.good.size, g.1.n]
    cases hk : s.f k with
    | none => simp
    | some v => rw [g.2 k v hk]; simp

/-- C65, the removal itself: afterwards the set has what it had except for the element.  (The full
claim would be that the result tells whether the element was there; see `setRemove_inverted`.) -/
theorem setRemove_partial {h : Helper K} (hl : h.Lawful) {m : Map K Unit} {cs : List Cell} {s : Abs K Unit}
    (g : SetStands h m cs s) (k : K) :
    ∃ b m' cs' s', setRemove h m k = .ok (b, m') ∧ SetStands h m' cs' s' ∧
      (∀ x, containsKey h m' x = .ok (!h.equal x k && (s.f x).isSome)) ∧
      m'.size = m.size - (if (s.f k).isSome then 1 else 0) := by
  obtain ⟨m', cs', h1, h2⟩ := remove_ok hl g.1 k
  refine ⟨(s.f k).bind id != some (), m', cs', _, by simp only [setRemove, h1, Except.bind], ⟨h2, ?_⟩, ?_, ?_⟩
  · intro x v
    simp only
    split
    · intro e; cases e
    · exact g.2 x v
  · intro x
    rw [containsKey_ok hl h2]
    by_cases hx : h.equal x k = true <;> simp [hx]
  · rw [h2.good.size, h2.n, g.1.good.size, g.1.n]
    cases hk : s.f k with
    | none => simp
    | some v =>
      obtain ⟨c, hc, -⟩ := (g.1.f k v).1 hk
      have := List.length_pos_of_mem hc
      rw [g.1.n] at this
      simp
      omega

/-- C65 (limit of the code): `remove` answers the opposite: `false` if it removed the element, `true` if
the element was not there. -/
theorem setRemove_inverted {h : Helper K} (hl : h.Lawful) {m : Map K Unit} {cs : List Cell} {s : Abs K Unit}
    (g : SetStands h m cs s) (k : K) :
    ∃ b m', setRemove h m k = .ok (b, m') ∧ containsKey h m k = .ok (!b) := by
  obtain ⟨m', cs', h1, h2⟩ := remove_ok hl g.1 k
  refine ⟨(s.f k).bind id != some (), m', by simp only [setRemove, h1, Except.bind], ?_⟩
  rw [containsKey_ok hl g.1]
  cases hk : s.f k with
  | none => simp
  | some v => rw [g.2 k v hk]; simp

/-- C65: `addAll` tells whether the set changed, and adds exactly the given elements. -/
theorem setAddAll_ok {h : Helper K} (hl : h.Lawful) : ∀ (ks : List K) {m : Map K Unit} {cs : List Cell}
    {s : Abs K Unit}, SetStands h m cs s →
    ∃ b m', setAddAll h m ks = .ok (b, m') ∧
      (∀ x, containsKey h m' x = .ok (ks.any (fun k => h.equal x k) || (s.f x).isSome)) ∧
      (b = false ↔ ∀ k ∈ ks, (s.f k).isSome = true) := by
  intro ks
  induction ks with
  | nil =>
    intro m cs s g
    exact ⟨false, m, rfl, fun x => by rw [containsKey_ok hl g.1]; simp, by simp⟩
  | cons k ks ih =>
    intro m cs s g
    obtain ⟨b, m1, cs1, s1, h1, h2, h3, h4, _⟩ := setAdd_ok hl g k
    obtain ⟨b2, m2, h5, h6, h7⟩ := ih h2
    have hs1 : ∀ x, (s1.f x).isSome = (h.equal x k || (s.f x).isSome) := by
      intro x
      have := h4 x
      rw [containsKey_ok hl h2.1] at this
      simpa using this
    rw [containsKey_ok hl g.1] at h3
    have hb : (s.f k).isSome = !b := by simpa using h3
    refine ⟨b || b2, m2, by simp only [setAddAll, h1, Except.bind, h5], ?_, ?_⟩
    · intro x
      rw [h6 x, hs1 x]
      simp only [List.any_cons]
      cases h.equal x k <;> simp
    · rw [Bool.or_eq_false_iff, h7]
      constructor
      · rintro ⟨e1, e2⟩ x hx
        rcases List.mem_cons.1 hx with rfl | hx
        · rw [hb, e1]; rfl
        · have := e2 x hx
          rw [hs1 x] at this
          cases hxk : h.equal x k with
          | false => simpa [hxk] using this
          | true =>
            have hk1 : (s.f k).isSome = true := by rw [hb, e1]; rfl
            obtain ⟨v, hv⟩ := Option.isSome_iff_exists.1 hk1
            obtain ⟨c, hc, e3, e4⟩ := (g.1.f k v).1 hv
            have := (g.1.f x v).2 ⟨c, hc, hl.trans _ _ _ hxk e3, e4⟩
            simp [this]
      · intro e
        refine ⟨?_, ?_⟩
        · have := e k (by simp)
          rw [hb] at this
          simpa using this
        · intro x hx
          rw [hs1 x, e x (by simp [hx])]
          simp

/-- A set of two elements, one of them taken out: the answers. -/
example : (match (new 0 0 : Except Exn (Map Nat Unit)) with
    | .ok m => match setAddAll digit m [3, 13, 3] with
      | .ok r => match setRemove digit r.2 3, setRemove digit r.2 23 with
        | .ok r3, .ok r23 => r.1 == true && r3.1 == false && r23.1 == true && r3.2.size == 1 && r23.2.size == 2
        | _, _ => false
      | .error _ => false
    | .error _ => false) = true := by decide +kernel

example : SetStands digit (⟨0, none, fun _ => 0, fun _ => none, fun _ => 0, fun _ => none, 0⟩ : Map Nat Unit) []
    ⟨fun _ => none, 0⟩ :=
  ⟨⟨⟨by simp, by simp, rfl, by simp, by simp, rfl⟩, rfl, by simp⟩, by simp⟩

/-! ### Cells whose keys were collected -/

/-- C66: the removal of a cell that is the first of its bucket removes this entry and no other.  (The full
claim would be without the condition on its place; see `removeThis_drops`.) -/
theorem removeThis_first_partial {h : Helper K} (hl : h.Lawful) {m : Map K V} {cs : List Cell} {s : Abs K V}
    (g : Stands h m cs s) {c : Cell} (hc : c ∈ cs) {arr : List (Option Cell)} (ha : m.array = some arr)
    (hfirst : arr[index (m.hash c) arr.length]? = some (some c)) :
    ∃ m', removeThis m c = .ok m' ∧ Stands h m' (cs.erase c)
      ⟨fun x => if h.equal x (m.key c) = true then none else s.f x, s.n - 1⟩ := by
  have hB := g.good.buckets ha
  have hi := hB.index_lt (m.hash c)
  obtain ⟨o, l, g1, g2, g3, g4⟩ := hB.chains _ hi
  rw [hfirst] at g1
  cases g1
  cases l with
  | nil => simp [Chain] at g2
  | cons d l2 =>
    obtain ⟨e, g2'⟩ := g2
    cases e
    have hfr : 0 < m.fresh := Nat.lt_of_le_of_lt (Nat.zero_le _) (g.good.below c hc)
    obtain ⟨n, hn⟩ : ∃ n, m.fresh = n + 1 := ⟨m.fresh - 1, (Nat.succ_pred_eq_of_pos hfr).symm⟩
    obtain ⟨arr', e1, e2⟩ := unlink_array (l1 := []) (c := c) (l2 := l2) g.good ha hi hfirst ⟨rfl, g2'⟩ g3 g4
    obtain ⟨f1, f2, f3, f4, f5⟩ := unlink_fields m (index (m.hash c) arr.length) none c
    have hst := erase_stands hl g hc (hl.refl (m.key c)) f1 f2 f3 f4 f5 (by
      simp only [List.getLast?_nil] at e1 e2
      rw [e1]; exact e2)
    simp only [List.getLast?_nil] at e1
    obtain ⟨m', e3, e4⟩ := shrink_stands hst e1
    refine ⟨m', ?_, e4⟩
    unfold removeThis
    rw [ha]
    simp only [load, hfirst, Except.bind, hn, seek, beq_self_eq_true, if_true]
    exact e3

/-- C66 (limit of the code): in general the entries before the removed one in the bucket are lost too.
Here 3 and 13 collide; when the entry of 3 is removed, 13 is gone although it is still in use, and the
size says that there is one entry. -/
theorem removeThis_drops : ∃ (m m' : Map Nat Nat) (cs : List Cell) (s : Abs Nat Nat) (c : Cell),
    Stands digit m cs s ∧ c ∈ cs ∧ m.key c = 3 ∧ get digit m 13 = .ok (some 31) ∧
    removeThis m c = .ok m' ∧ get digit m' 13 = .ok none ∧ containsKey digit m' 13 = .ok false ∧
    m'.size = 1 := by
  obtain ⟨m0, h1, h2⟩ := new_ok (V := Nat) digit 0 (capacity := 16) (by decide)
  obtain ⟨m1, cs1, h3, h4⟩ := put_ok digit_lawful h2 3 (some 30)
  obtain ⟨m2, cs2, h5, h6⟩ := put_ok digit_lawful h4 13 (some 31)
  have hm : ((new 0 16 : Except Exn (Map Nat Nat)).bind fun m => (put digit m 3 (some 30)).bind fun r =>
      (put digit r.2 13 (some 31)).bind fun r => .ok r.2) = .ok m2 := by
    rw [h1]; simp only [Except.bind, h3, h5]
  have key : ∀ m : Map Nat Nat, ((new 0 16 : Except Exn (Map Nat Nat)).bind fun m => (put digit m 3 (some 30)).bind fun r =>
      (put digit r.2 13 (some 31)).bind fun r => .ok r.2) = .ok m →
      (m.key 0 == 3 && (match get digit m 13 with | .ok v => v == some 31 | _ => false) &&
        (match removeThis m 0 with
          | .ok m' => (match get digit m' 13 with | .ok v => v == none | _ => false) &&
              (match containsKey digit m' 13 with | .ok v => v == false | _ => false) && m'.size == 1
          | _ => false)) = true := by
    intro m e
    have : (match ((new 0 16 : Except Exn (Map Nat Nat)).bind fun m => (put digit m 3 (some 30)).bind fun r =>
      (put digit r.2 13 (some 31)).bind fun r => .ok r.2) with
      | .ok m => (m.key 0 == 3 && (match get digit m 13 with | .ok v => v == some 31 | _ => false) &&
        (match removeThis m 0 with
          | .ok m' => (match get digit m' 13 with | .ok v => v == none | _ => false) &&
              (match containsKey digit m' 13 with | .ok v => v == false | _ => false) && m'.size == 1
          | _ => false))
      | .error _ => false) = true := by decide +kernel
    rw [e] at this
    exact this
  have hk := key m2 hm
  simp only [Bool.and_eq_true, beq_iff_eq] at hk
  obtain ⟨⟨k1, k2⟩, k3⟩ := hk
  have hg2 : get digit m2 13 = .ok (some 31) := by
    cases he : get digit m2 13 with
    | error => rw [he] at k2; cases k2
    | ok v => rw [he] at k2; simp at k2; rw [k2]
  have hf3 : ∃ c ∈ cs2, m2.key c = 3 := by
    have := (h6.f 3 (some 30)).1 (by simp [digit])
    obtain ⟨c, hc, he, -⟩ := this
    exact ⟨c, hc, by simpa [digit] using Eq.symm (by simpa [digit] using he)⟩
  obtain ⟨c, hc, hck⟩ := hf3
  -- the cell is number 0
  cases hr : removeThis m2 0 with
  | error => rw [hr] at k3; cases k3
  | ok m' =>
    rw [hr] at k3
    simp only [Bool.and_eq_true, beq_iff_eq] at k3
    obtain ⟨⟨k4, k5⟩, k6⟩ := k3
    have h0 : (0 : Cell) ∈ cs2 := by
      -- keys of the cells are unique, and there are two cells below `fresh`
      have hfresh : m2.fresh = 2 := by
        have : (match ((new 0 16 : Except Exn (Map Nat Nat)).bind fun m => (put digit m 3 (some 30)).bind fun r =>
          (put digit r.2 13 (some 31)).bind fun r => .ok r.2) with
          | .ok m => m.fresh == 2 && m.key 1 == 13
          | .error _ => false) = true := by decide +kernel
        rw [hm] at this
        simp at this
        exact this.1
      have hkey1 : m2.key 1 = 13 := by
        have : (match ((new 0 16 : Except Exn (Map Nat Nat)).bind fun m => (put digit m 3 (some 30)).bind fun r =>
          (put digit r.2 13 (some 31)).bind fun r => .ok r.2) with
          | .ok m => m.fresh == 2 && m.key 1 == 13
          | .error _ => false) = true := by decide +kernel
        rw [hm] at this
        simp at this
        exact this.2
      have hlt := h6.good.below c hc
      rw [hfresh] at hlt
      have hne : c ≠ 1 := by
        rintro rfl
        rw [hkey1] at hck
        cases hck
      have : c = 0 := by
        have h1 : (c : Nat) < 2 := hlt
        have h2 : (c : Nat) ≠ 1 := hne
        show (c : Nat) = 0
        exact (fun (n : Nat) (a : n < 2) (b : n ≠ 1) => (by omega : n = 0)) c h1 h2
      rw [← this]; exact hc
    refine ⟨m2, m', cs2, _, 0, h6, h0, k1, hg2, hr, ?_, ?_, k6⟩
    · cases he : get digit m' 13 with
      | error => rw [he] at k4; cases k4
      | ok v => rw [he] at k4; simp at k4; rw [k4]
    · cases he : containsKey digit m' 13 with
      | error => rw [he] at k5; cases k5
      | ok v => rw [he] at k5; simp at k5; rw [k5]

/-- C66 (limit of the code): after `clear`, the removal of a cell whose key is collected later fails with a
null pointer, and so does the operation on the map that polled the queue. -/
theorem removeThis_cleared (m : Map K V) (c : Cell) : removeThis (clear m) c = .error .nullPointer := rfl

/-- A cell at the head of its bucket. -/
example : (match ((new 0 16 : Except Exn (Map Nat Nat)).bind fun m => (put digit m 3 (some 30)).bind fun r =>
      (put digit r.2 13 (some 31)).bind fun r => .ok r.2) with
    | .ok m => (m.array.getD [])[index (m.hash 1) 16]? == some (some 1) &&
        (match removeThis m 1 with
          | .ok m' => (match get digit m' 3 with | .ok v => v == some 30 | _ => false) && m'.size == 1
          | _ => false)
    | .error _ => false) = true := by decide +kernel

end Avian.JHashMap
