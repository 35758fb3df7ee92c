import Verif.Props.JHashMapCore

/-
Every operation of a hash map keeps the invariant and does what an abstract map does.
-/
namespace Avian.JHashMap

variable {K V : Type}

/-- An abstract map: `f k` is the value of a key (`some none` if it is null), `none` if the key is not in
the map; `n` is the number of entries. -/
structure Abs (K V : Type) where
  f : K → Option (Option V)
  n : Nat

/-- The map `m` stands for `s`; `cs` are its cells. -/
structure Stands (h : Helper K) (m : Map K V) (cs : List Cell) (s : Abs K V) : Prop where
  good : Good h m cs
  n : cs.length = s.n
  f : ∀ x v, s.f x = some v ↔ ∃ c ∈ cs, h.equal x (m.key c) = true ∧ m.value c = v

theorem InArray.congr {hash hash' : Cell → BitVec 32} {next next' : Cell → Option Cell} {cs : List Cell}
    (h1 : ∀ c ∈ cs, hash' c = hash c) (h2 : ∀ c ∈ cs, next' c = next c)
    {a : Option (List (Option Cell))} (ha : InArray hash next cs a) : InArray hash' next' cs a := by
  cases a with
  | none => exact ha
  | some arr =>
    refine ⟨ha.length, ha.power, fun j hj => ?_⟩
    obtain ⟨o, l, g1, g2, g3, g4⟩ := ha.chains j hj
    refine ⟨o, l, g1, chain_congr (fun c hc => h2 c ((g4 c).1 hc).1) g2, g3, fun c => ?_⟩
    rw [g4 c]
    constructor
    · rintro ⟨h5, h6⟩; exact ⟨h5, by rw [h1 c h5]; exact h6⟩
    · rintro ⟨h5, h6⟩; exact ⟨h5, by rw [← h1 c h5]; exact h6⟩

/-- What the walk along the bucket of a key finds. -/
theorem walk_ok {h : Helper K} (hl : h.Lawful) {m : Map K V} {cs : List Cell} (g : Good h m cs)
    {arr : List (Option Cell)} (ha : m.array = some arr) (k : K) :
    index (h.hash k) arr.length < arr.length ∧
    ∃ o l, load arr (index (h.hash k) arr.length) = .ok o ∧ arr[index (h.hash k) arr.length]? = some o ∧
      Chain m.next o l ∧ l.Nodup ∧
      (∀ c, c ∈ l ↔ c ∈ cs ∧ index (m.hash c) arr.length = index (h.hash k) arr.length) ∧
      ((seek m.next (fun c => h.equal k (m.key c)) m.fresh none o = .ok none ∧
          ∀ c ∈ cs, h.equal k (m.key c) = false) ∨
        ∃ l1 c l2, l = l1 ++ c :: l2 ∧ c ∈ cs ∧ h.equal k (m.key c) = true ∧
          m.hash c = h.hash k ∧
          seek m.next (fun c => h.equal k (m.key c)) m.fresh none o = .ok (some (l1.getLast?, c))) := by
  have hB := g.buckets ha
  have hi := hB.index_lt (h.hash k)
  obtain ⟨o, l, g1, g2, g3, g4⟩ := hB.chains _ hi
  refine ⟨hi, o, l, by simp [load, g1], g1, g2, g3, g4, ?_⟩
  rcases seek_spec (test := fun c => h.equal k (m.key c)) (fuel := m.fresh) (p := none) g2
      (g.chain_le g3 (fun c hc => ((g4 c).1 hc).1)) with ⟨h1, h2⟩ | ⟨l1, c, l2, h1, h2, h3, h4⟩
  · refine Or.inl ⟨h1, ?_⟩
    intro c hc
    cases he : h.equal k (m.key c) with
    | false => rfl
    | true =>
      have h3 : m.hash c = h.hash k := by rw [g.hashes c hc, ← hl.hash _ _ he]
      have h4 := h2 c ((g4 c).2 ⟨hc, by rw [h3]⟩)
      simp [he] at h4
  · refine Or.inr ⟨l1, c, l2, h1, ?_, h2, ?_, ?_⟩
    · exact ((g4 c).1 (by simp [h1])).1
    · rw [g.hashes c ((g4 c).1 (by simp [h1])).1, hl.hash _ _ h2]
    · rw [h4]; cases l1.getLast? <;> rfl

theorem find_ok {h : Helper K} (hl : h.Lawful) {m : Map K V} {cs : List Cell} (g : Good h m cs) (k : K) :
    (find h m k = .ok none ∧ ∀ c ∈ cs, h.equal k (m.key c) = false) ∨
    ∃ c ∈ cs, h.equal k (m.key c) = true ∧ find h m k = .ok (some c) := by
  unfold find
  cases ha : m.array with
  | none =>
    have := g.array
    rw [ha] at this
    simp only [InArray] at this
    subst this
    exact Or.inl ⟨rfl, by simp⟩
  | some arr =>
    obtain ⟨_, o, l, h1, _, h2, h3, h4, h5⟩ := walk_ok hl g ha k
    simp only [h1, Except.bind]
    rcases h5 with ⟨h5, h6⟩ | ⟨l1, c, l2, h5, h6, h7, _, h8⟩
    · rw [h5]; exact Or.inl ⟨rfl, h6⟩
    · rw [h8]; exact Or.inr ⟨c, h6, h7, rfl⟩

/-- Finding in terms of the abstract map. -/
theorem find_abs {h : Helper K} (hl : h.Lawful) {m : Map K V} {cs : List Cell} {s : Abs K V}
    (g : Stands h m cs s) (k : K) :
    (find h m k = .ok none ∧ s.f k = none ∧ ∀ c ∈ cs, h.equal k (m.key c) = false) ∨
    ∃ c ∈ cs, h.equal k (m.key c) = true ∧ find h m k = .ok (some c) ∧ s.f k = some (m.value c) := by
  rcases find_ok hl g.good k with ⟨h1, h2⟩ | ⟨c, h1, h2, h3⟩
  · refine Or.inl ⟨h1, ?_, h2⟩
    cases hf : s.f k with
    | none => rfl
    | some v =>
      obtain ⟨c, hc, he, _⟩ := (g.f k v).1 hf
      rw [h2 c hc] at he; cases he
  · exact Or.inr ⟨c, h1, h2, h3, (g.f k _).2 ⟨c, h1, h2, rfl⟩⟩

theorem new_ok (h : Helper K) (d : K) {capacity : Int} (hc : capacity ≤ 2 ^ 30) :
    ∃ m : Map K V, new d capacity = .ok m ∧ Stands h m [] ⟨fun _ => none, 0⟩ := by
  unfold new
  split
  · obtain ⟨k, hk, h1, _⟩ := nextPowerOfTwo_ok hc
    rw [h1]
    have h3 : ((2 : Int) ^ k).toNat = 2 ^ k := by
      have : ((2 : Int) ^ k) = ((2 ^ k : Nat) : Int) := by simp
      rw [this]; rfl
    refine ⟨_, rfl, ⟨by simp, by simp, rfl, by simp, by simp, ?_⟩, rfl, by simp⟩
    simp only [InArray, List.length_replicate, h3]
    exact buckets_empty _ hk _
  · exact ⟨_, rfl, ⟨by simp, by simp, rfl, by simp, by simp, rfl⟩, rfl, by simp⟩

/-- A value is replaced. -/
theorem setValue_stands {h : Helper K} (hl : h.Lawful) {m : Map K V} {cs : List Cell} {s : Abs K V}
    (g : Stands h m cs s) {k : K} {c : Cell} (hc : c ∈ cs) (he : h.equal k (m.key c) = true) (v : Option V) :
    Stands h (setValue m c v) cs ⟨fun x => if h.equal x k = true then some v else s.f x, s.n⟩ := by
  refine ⟨⟨g.good.nodup, g.good.below, g.good.size, g.good.hashes, g.good.unique, g.good.array⟩, g.n, ?_⟩
  intro x w
  simp only [setValue]
  split
  · rename_i hx
    constructor
    · intro e
      cases e
      exact ⟨c, hc, hl.trans _ _ _ hx he, by simp [set]⟩
    · rintro ⟨d, hd, h1, h2⟩
      have : d = c := g.good.unique d hd c hc
        (hl.trans _ _ _ (hl.symm _ _ h1) (hl.trans _ _ _ hx he))
      subst this
      simp [set] at h2
      rw [h2]
  · rename_i hx
    rw [g.f x w]
    constructor
    · rintro ⟨d, hd, h1, h2⟩
      refine ⟨d, hd, h1, ?_⟩
      have : d ≠ c := by
        rintro rfl
        exact hx (hl.trans _ _ _ h1 (hl.symm _ _ he))
      rw [set_other _ _ this]; exact h2
    · rintro ⟨d, hd, h1, h2⟩
      refine ⟨d, hd, h1, ?_⟩
      have : d ≠ c := by
        rintro rfl
        exact hx (hl.trans _ _ _ h1 (hl.symm _ _ he))
      rw [set_other _ _ this] at h2; exact h2

/-- A new entry. -/
theorem insert_stands {h : Helper K} (hl : h.Lawful) {m : Map K V} {cs : List Cell} {s : Abs K V}
    (g : Stands h m cs s) {k : K} (hk : ∀ c ∈ cs, h.equal k (m.key c) = false) (v : Option V) :
    ∃ m', insert (make h m k v).1 (make h m k v).2 = .ok m' ∧ Stands h m' (m.fresh :: cs)
      ⟨fun x => if h.equal x k = true then some v else s.f x, s.n + 1⟩ := by
  have hfresh : ∀ c ∈ cs, c ≠ m.fresh := fun c hc => Nat.ne_of_lt (g.good.below c hc)
  have ha : InArray (set m.hash m.fresh (h.hash k)) (set m.next m.fresh none) cs m.array :=
    InArray.congr (fun c hc => set_other _ _ (hfresh c hc)) (fun c hc => set_other _ _ (hfresh c hc))
      g.good.array
  unfold insert make
  simp only
  obtain ⟨m1, arr, e1, e2, e3, e4⟩ := grow_ok (m := { m with
      size := m.size + 1, key := set m.key m.fresh k, value := set m.value m.fresh v,
      hash := set m.hash m.fresh (h.hash k), next := set m.next m.fresh none,
      fresh := m.fresh + 1 }) g.good.nodup
    (fun c hc => Nat.lt_succ_of_lt (g.good.below c hc)) ha
  rw [e1]
  simp only [Except.bind, e3]
  have hnot : m.fresh ∉ cs := fun hm => hfresh _ hm rfl
  obtain ⟨head, e5, e6⟩ := e4.insert hnot
  rw [e5]
  refine ⟨_, rfl, ⟨List.nodup_cons.2 ⟨hnot, g.good.nodup⟩, ?_, ?_, ?_, ?_, ?_⟩, by simp [g.n], ?_⟩
  · intro c hc
    simp only [e2.fresh]
    rcases List.mem_cons.1 hc with rfl | hc
    · exact Nat.lt_succ_self _
    · exact Nat.lt_succ_of_lt (g.good.below c hc)
  · simp only [e2.size, List.length_cons]
    rw [g.good.size]; simp
  · intro c hc
    simp only [e2.hash, e2.key]
    rcases List.mem_cons.1 hc with rfl | hc
    · simp [set]
    · rw [set_other _ _ (hfresh c hc), set_other _ _ (hfresh c hc)]
      exact g.good.hashes c hc
  · intro c hc d hd he
    simp only [e2.key] at he
    rcases List.mem_cons.1 hc with rfl | hc <;> rcases List.mem_cons.1 hd with rfl | hd
    · rfl
    · rw [set_same, set_other _ _ (hfresh d hd), hk d hd] at he; cases he
    · rw [set_same, set_other _ _ (hfresh c hc)] at he
      have := hl.symm _ _ he
      rw [hk c hc] at this; cases this
    · rw [set_other _ _ (hfresh c hc), set_other _ _ (hfresh d hd)] at he
      exact g.good.unique c hc d hd he
  · simp only [InArray, List.length_set]
    exact e6
  · intro x w
    simp only [e2.key, e2.value]
    split
    · rename_i hx
      constructor
      · intro e
        cases e
        exact ⟨m.fresh, by simp, by simpa [set] using hx, by simp [set]⟩
      · rintro ⟨c, hc, h1, h2⟩
        rcases List.mem_cons.1 hc with rfl | hc
        · simp [set] at h2; rw [h2]
        · rw [set_other _ _ (hfresh c hc)] at h1
          have := hl.trans _ _ _ (hl.symm _ _ hx) h1
          rw [hk c hc] at this; cases this
    · rename_i hx
      rw [g.f x w]
      constructor
      · rintro ⟨c, hc, h1, h2⟩
        refine ⟨c, by simp [hc], ?_, ?_⟩
        · rw [set_other _ _ (hfresh c hc)]; exact h1
        · rw [set_other _ _ (hfresh c hc)]; exact h2
      · rintro ⟨c, hc, h1, h2⟩
        rcases List.mem_cons.1 hc with rfl | hc
        · rw [set_same] at h1; exact absurd h1 hx
        · rw [set_other _ _ (hfresh c hc)] at h1 h2
          exact ⟨c, hc, h1, h2⟩

theorem put_ok {h : Helper K} (hl : h.Lawful) {m : Map K V} {cs : List Cell} {s : Abs K V}
    (g : Stands h m cs s) (k : K) (v : Option V) :
    ∃ m' cs', put h m k v = .ok ((s.f k).bind id, m') ∧ Stands h m' cs'
      ⟨fun x => if h.equal x k = true then some v else s.f x, if s.f k = none then s.n + 1 else s.n⟩ := by
  unfold put
  rcases find_abs hl g k with ⟨h1, h2, h3⟩ | ⟨c, h1, h2, h3, h4⟩
  · obtain ⟨m', e1, e2⟩ := insert_stands hl g h3 v
    refine ⟨m', m.fresh :: cs, ?_, ?_⟩
    · simp only [h1, Except.bind, e1, h2]
      rfl
    · rw [h2]; simpa using e2
  · refine ⟨setValue m c v, cs, ?_, ?_⟩
    · simp only [h3, Except.bind, h4]
      rfl
    · rw [h4]; simpa using setValue_stands hl g h1 h2 v

theorem get_ok {h : Helper K} (hl : h.Lawful) {m : Map K V} {cs : List Cell} {s : Abs K V}
    (g : Stands h m cs s) (k : K) : get h m k = .ok ((s.f k).bind id) := by
  unfold get
  rcases find_abs hl g k with ⟨h1, h2, h3⟩ | ⟨c, h1, h2, h3, h4⟩
  · simp only [h1, Except.bind, h2]; rfl
  · simp only [h3, Except.bind, h4]; rfl

theorem containsKey_ok {h : Helper K} (hl : h.Lawful) {m : Map K V} {cs : List Cell} {s : Abs K V}
    (g : Stands h m cs s) (k : K) : containsKey h m k = .ok (s.f k).isSome := by
  unfold containsKey
  rcases find_abs hl g k with ⟨h1, h2, h3⟩ | ⟨c, h1, h2, h3, h4⟩
  · simp only [h1, Except.bind, h2]; rfl
  · simp only [h3, Except.bind, h4]; rfl

/-- A cell is taken out of the map. -/
theorem erase_stands {h : Helper K} (hl : h.Lawful) {m : Map K V} {cs : List Cell} {s : Abs K V}
    (g : Stands h m cs s) {c : Cell} (hc : c ∈ cs) {k : K} (he : h.equal k (m.key c) = true) {m' : Map K V}
    (h1 : m'.size = m.size - 1) (h2 : m'.key = m.key) (h3 : m'.value = m.value) (h4 : m'.hash = m.hash)
    (h5 : m'.fresh = m.fresh) (h6 : InArray m'.hash m'.next (cs.erase c) m'.array) :
    Stands h m' (cs.erase c) ⟨fun x => if h.equal x k = true then none else s.f x, s.n - 1⟩ := by
  have hmem : ∀ d, d ∈ cs.erase c ↔ d ≠ c ∧ d ∈ cs := fun d => g.good.nodup.mem_erase_iff
  have hlen : (cs.erase c).length = cs.length - 1 := List.length_erase_of_mem hc
  have hpos : 0 < cs.length := List.length_pos_of_mem hc
  refine ⟨⟨g.good.nodup.erase c, ?_, ?_, ?_, ?_, h6⟩, by rw [hlen, g.n], ?_⟩
  · intro d hd; rw [h5]; exact g.good.below d ((hmem d).1 hd).2
  · rw [h1, hlen, g.good.size]; omega
  · intro d hd; rw [h4, h2]; exact g.good.hashes d ((hmem d).1 hd).2
  · intro d hd e he'; rw [h2]; exact g.good.unique d ((hmem d).1 hd).2 e ((hmem e).1 he').2
  · intro x w
    rw [h2, h3]
    simp only
    split
    · rename_i hx
      constructor
      · intro e; cases e
      · rintro ⟨d, hd, e1, e2⟩
        have := g.good.unique d ((hmem d).1 hd).2 c hc
          (hl.trans _ _ _ (hl.symm _ _ e1) (hl.trans _ _ _ hx he))
        exact absurd this ((hmem d).1 hd).1
    · rename_i hx
      rw [g.f x w]
      constructor
      · rintro ⟨d, hd, e1, e2⟩
        refine ⟨d, (hmem d).2 ⟨?_, hd⟩, e1, e2⟩
        rintro rfl
        exact hx (hl.trans _ _ _ e1 (hl.symm _ _ he))
      · rintro ⟨d, hd, e1, e2⟩
        exact ⟨d, ((hmem d).1 hd).2, e1, e2⟩

theorem shrink_stands {h : Helper K} {m : Map K V} {cs : List Cell} {s : Abs K V} (g : Stands h m cs s)
    {arr : List (Option Cell)} (ha : m.array = some arr) :
    ∃ m', shrink m = .ok m' ∧ Stands h m' cs s := by
  obtain ⟨m', arr', e1, e2, e3, e4⟩ := shrink_ok g.good.nodup g.good.below ha (g.good.buckets ha)
  refine ⟨m', e1, ⟨g.good.nodup, ?_, ?_, ?_, ?_, ?_⟩, g.n, ?_⟩
  · rw [e2.fresh]; exact g.good.below
  · rw [e2.size]; exact g.good.size
  · rw [e2.hash, e2.key]; exact g.good.hashes
  · rw [e2.key]; exact g.good.unique
  · rw [e3]; exact e4
  · rw [e2.key, e2.value]; exact g.f

/-- `unlink` takes a cell out of the array. -/
theorem unlink_array {h : Helper K} {m : Map K V} {cs : List Cell} (g : Good h m cs)
    {arr : List (Option Cell)} (ha : m.array = some arr) {i : Nat} (hi : i < arr.length) {o : Option Cell}
    {l1 : List Cell} {c : Cell} {l2 : List Cell} (ho : arr[i]? = some o)
    (hch : Chain m.next o (l1 ++ c :: l2)) (hnd : (l1 ++ c :: l2).Nodup)
    (hmem : ∀ d, d ∈ l1 ++ c :: l2 ↔ d ∈ cs ∧ index (m.hash d) arr.length = i) :
    ∃ arr', (unlink m i l1.getLast? c).array = some arr' ∧
      InArray (unlink m i l1.getLast? c).hash (unlink m i l1.getLast? c).next (cs.erase c) (some arr') := by
  obtain ⟨u1, u2⟩ := (g.buckets ha).unlink hi ho hch hnd hmem g.nodup
  rcases List.eq_nil_or_concat l1 with rfl | ⟨l, p, rfl⟩
  · refine ⟨arr.set i (m.next c), by simp [unlink, ha], ?_⟩
    have := u1 rfl
    simpa [InArray, unlink] using this
  · refine ⟨arr, by simp [unlink, ha], ?_⟩
    have := u2 l p (by simp)
    simpa [InArray, unlink] using this

theorem unlink_fields (m : Map K V) (i : Nat) (p : Option Cell) (c : Cell) :
    (unlink m i p c).size = m.size - 1 ∧ (unlink m i p c).key = m.key ∧
    (unlink m i p c).value = m.value ∧ (unlink m i p c).hash = m.hash ∧
    (unlink m i p c).fresh = m.fresh := by
  cases p <;> simp [unlink]

theorem removeCell_ok {h : Helper K} (hl : h.Lawful) {m : Map K V} {cs : List Cell} {s : Abs K V}
    (g : Stands h m cs s) (k : K) :
    ∃ o m' cs', removeCell h m k = .ok (o, m') ∧ o.map m.value = s.f k ∧ Stands h m' cs'
      ⟨fun x => if h.equal x k = true then none else s.f x, if s.f k = none then s.n else s.n - 1⟩ := by
  have habsent : (∀ c ∈ cs, h.equal k (m.key c) = false) → s.f k = none ∧
      (fun x => if h.equal x k = true then none else s.f x) = s.f := by
    intro h2
    have hf : ∀ x, h.equal x k = true → s.f x = none := by
      intro x hx
      cases hf : s.f x with
      | none => rfl
      | some v =>
        obtain ⟨c, hc, he, _⟩ := (g.f x v).1 hf
        have := hl.trans _ _ _ (hl.symm _ _ hx) he
        rw [h2 c hc] at this; cases this
    refine ⟨hf k (hl.refl k), ?_⟩
    funext x
    split
    · rename_i hx; exact (hf x hx).symm
    · rfl
  unfold removeCell
  cases ha : m.array with
  | none =>
    have hcs := g.good.array
    rw [ha] at hcs
    simp only [InArray] at hcs
    obtain ⟨h1, h2⟩ := habsent (by simp [hcs])
    exact ⟨none, m, cs, rfl, by simp [h1], by simp [h1, h2]; exact g⟩
  | some arr =>
    obtain ⟨hi, o, l, h1, ho, h2, h3, h4, h5⟩ := walk_ok hl g.good ha k
    simp only [h1, Except.bind]
    rcases h5 with ⟨h5, h6⟩ | ⟨l1, c, l2, h5, h6, h7, hh, h8⟩
    · rw [h5]
      obtain ⟨g1, g2⟩ := habsent h6
      obtain ⟨m', e1, e2⟩ := shrink_stands g ha
      simp only [e1]
      exact ⟨none, m', cs, rfl, by simp [g1], by simp [g1, g2]; exact e2⟩
    · rw [h8]
      subst h5
      obtain ⟨arr', e1, e2⟩ := unlink_array g.good ha hi ho h2 h3 h4
      obtain ⟨f1, f2, f3, f4, f5⟩ := unlink_fields m (index (h.hash k) arr.length) l1.getLast? c
      have hst := erase_stands hl g h6 h7 f1 f2 f3 f4 f5 (by rw [e1]; exact e2)
      obtain ⟨m', e3, e4⟩ := shrink_stands hst e1
      have hfk : s.f k = some (m.value c) := (g.f k _).2 ⟨c, h6, h7, rfl⟩
      simp only [e3]
      exact ⟨some c, m', cs.erase c, rfl, by simp [hfk], by simpa [hfk] using e4⟩

theorem remove_ok {h : Helper K} (hl : h.Lawful) {m : Map K V} {cs : List Cell} {s : Abs K V}
    (g : Stands h m cs s) (k : K) :
    ∃ m' cs', remove h m k = .ok ((s.f k).bind id, m') ∧ Stands h m' cs'
      ⟨fun x => if h.equal x k = true then none else s.f x, if s.f k = none then s.n else s.n - 1⟩ := by
  obtain ⟨o, m', cs', h1, h2, h3⟩ := removeCell_ok hl g k
  refine ⟨m', cs', ?_, h3⟩
  unfold remove
  simp only [h1, Except.bind]
  rw [← h2]
  cases o <;> rfl

theorem clear_ok {h : Helper K} {m : Map K V} {cs : List Cell} {s : Abs K V} (_g : Stands h m cs s) :
    Stands h (clear m) [] ⟨fun _ => none, 0⟩ :=
  ⟨⟨by simp, by simp, rfl, by simp, by simp, rfl⟩, rfl, by simp⟩

theorem containsValueFrom_ok {h : Helper K} {m : Map K V} {cs : List Cell} (g : Good h m cs)
    (test : Option V → Bool) :
    ∀ (bs : List (Option Cell)) (ls : List (List Cell)), bs.length = ls.length →
    (∀ (i : Nat) (o : Option Cell) (l : List Cell), bs[i]? = some o → ls[i]? = some l →
      Chain m.next o l ∧ l.Nodup ∧ ∀ c ∈ l, c ∈ cs) →
    containsValueFrom m test bs = .ok (ls.flatten.any fun c => test (m.value c)) := by
  intro bs
  induction bs with
  | nil =>
    intro ls hlen _
    cases ls with
    | nil => rfl
    | cons => simp at hlen
  | cons b bs ih =>
    intro ls hlen hch
    cases ls with
    | nil => simp at hlen
    | cons l ls =>
      obtain ⟨h1, h2, h3⟩ := hch 0 b l rfl rfl
      unfold containsValueFrom
      rcases seek_spec (test := fun c => test (m.value c)) (fuel := m.fresh) (p := none) h1
          (g.chain_le h2 h3) with ⟨e1, e2⟩ | ⟨l1, c, l2, e1, e2, e3, e4⟩
      · rw [e1]
        simp only [Except.bind]
        rw [if_neg (by simp), ih ls (by simpa using hlen)
          (fun i o l' hi hl' => hch (i + 1) o l' (by simpa using hi) (by simpa using hl'))]
        have : l.any (fun c => test (m.value c)) = false := by
          rw [List.any_eq_false]
          intro c hc
          simpa using e2 c hc
        simp [List.any_append, this]
      · rw [e4]
        simp only [Except.bind]
        rw [if_pos (by simp)]
        have : (l :: ls).flatten.any (fun c => test (m.value c)) = true := by
          rw [List.any_eq_true]
          exact ⟨c, by simp [e1], e2⟩
        rw [this]

theorem containsValue_ok {h : Helper K} (hl : h.Lawful) {m : Map K V} {cs : List Cell} {s : Abs K V}
    (g : Stands h m cs s) (test : Option V → Bool) :
    ∃ b, containsValue m test = .ok b ∧ (b = true ↔ ∃ x v, s.f x = some v ∧ test v = true) := by
  unfold containsValue
  cases ha : m.array with
  | none =>
    have hcs := g.good.array
    rw [ha] at hcs
    simp only [InArray] at hcs
    subst hcs
    refine ⟨false, rfl, by simp, ?_⟩
    rintro ⟨x, v, h1, _⟩
    have := (g.f x v).1 h1
    simp at this
  | some arr =>
    obtain ⟨ls, h1, h2, h3, h4⟩ := (g.good.buckets ha).lists
    refine ⟨_, containsValueFrom_ok g.good test arr ls h1.symm ?_, ?_⟩
    · intro i o l hi hl'
      obtain ⟨g1, g2, g3⟩ := h4 i o l hi hl'
      exact ⟨g1, g2, fun c hc => ((g3 c).1 hc).1⟩
    · rw [List.any_eq_true]
      constructor
      · rintro ⟨c, hc, ht⟩
        exact ⟨m.key c, m.value c, (g.f _ _).2 ⟨c, (h3 c).1 hc, hl.refl _, rfl⟩, ht⟩
      · rintro ⟨x, v, e1, e2⟩
        obtain ⟨c, hc, _, e3⟩ := (g.f x v).1 e1
        exact ⟨c, (h3 c).2 hc, by rw [e3]; exact e2⟩

end Avian.JHashMap
