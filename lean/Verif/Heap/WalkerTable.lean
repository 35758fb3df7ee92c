import Verif.Heap.Walker

/-! The table of the heap walker (src/heapwalk.cpp:25-64, 143-223) is a function from objects to numbers. -/
namespace Avian.HeapWalk

/-- What the table says. -/
def Table.pairs (t : Table) : List (Nat × Nat) := t.entries.map fun e => (e.value, e.number)

/-- From the start of a chain, an entry is met. -/
inductive InChain (es : List Entry) : Option Nat → Nat → Prop where
  | here (i : Nat) : InChain es (some i) i
  | there {i j : Nat} {e : Entry} (h : es[j]? = some e) (h1 : InChain es e.next i) : InChain es (some j) i

/-- The table is in order. -/
structure Table.Ok (t : Table) : Prop where
  pos : 0 < t.capacity
  size : t.entries.length ≤ t.capacity
  head : ∀ b i, t.index b = some i → ∃ e : Entry, t.entries[i]? = some e ∧ hash e.value t.capacity = b
  next : ∀ (i : Nat) (e : Entry) (j : Nat), t.entries[i]? = some e → e.next = some j → j < i ∧ ∃ e' : Entry, t.entries[j]? = some e' ∧ hash e'.value t.capacity = hash e.value t.capacity
  cover : ∀ (i : Nat) (e : Entry), t.entries[i]? = some e → InChain t.entries (t.index (hash e.value t.capacity)) i
  nodup : (t.entries.map (·.value)).Nodup

theorem hash_lt {p c : Nat} (h : 0 < c) : hash p c < c := by
  unfold hash
  have : (p >>> 3) &&& (c - 1) ≤ c - 1 := Nat.and_le_right
  omega

theorem Table.empty_ok {c : Nat} (h : 0 < c) : (Table.empty c).Ok :=
  ⟨h, Nat.zero_le _, fun _ _ h => (by cases h), fun _ _ _ h => (by cases h), fun _ _ h => (by cases h), List.nodup_nil⟩

theorem getElem?_append_some {α : Type} {l l' : List α} {i : Nat} {x : α} (h : l[i]? = some x) : (l ++ l')[i]? = some x := by
  rw [List.getElem?_append_left (List.getElem?_eq_some_iff.1 h).1]; exact h

theorem getElem?_concat {α : Type} {l : List α} {i : Nat} {x y : α} (h : (l ++ [y])[i]? = some x) : l[i]? = some x ∨ (i = l.length ∧ x = y) := by
  rcases Nat.lt_or_ge i l.length with h1 | h1
  · rw [List.getElem?_append_left h1] at h; exact Or.inl h
  · rw [List.getElem?_append_right h1] at h
    have : i - l.length < 1 := (List.getElem?_eq_some_iff.1 h).1
    have e : i - l.length = 0 := by omega
    rw [e] at h
    cases h
    exact Or.inr ⟨by omega, rfl⟩

theorem InChain.append {es es' : List Entry} {st : Option Nat} {i : Nat} (h : InChain es st i) : InChain (es ++ es') st i := by
  induction h with
  | here i => exact .here i
  | there h _ ih => exact .there (getElem?_append_some h) ih

theorem Table.Ok.add {t : Table} (h : t.Ok) {p n : Nat} (hl : t.entries.length < t.capacity) (hp : ∀ e ∈ t.entries, e.value ≠ p) :
    ∃ t', t.add p n = some (t', t.entries.length) ∧ t'.Ok ∧ t'.capacity = t.capacity ∧ t'.pairs = t.pairs ++ [(p, n)] ∧
      ∃ e : Entry, t'.entries = t.entries ++ [e] ∧ e.value = p := by
  refine ⟨_, if_pos hl, ⟨h.pos, ?_, ?_, ?_, ?_, ?_⟩, rfl, ?_, ⟨_, _, _⟩, rfl, rfl⟩
  · show (t.entries ++ [_]).length ≤ _
    rw [List.length_append]
    exact hl
  · intro b i hb
    have hb' : (if b = hash p t.capacity then some t.entries.length else t.index b) = some i := hb
    show ∃ e, (t.entries ++ [_])[i]? = some e ∧ hash e.value t.capacity = b
    by_cases hc : b = hash p t.capacity
    · rw [if_pos hc] at hb'
      cases hb'
      refine ⟨_, List.getElem?_concat_length, hc.symm⟩
    · rw [if_neg hc] at hb'
      obtain ⟨e, h1, h2⟩ := h.head b i hb'
      exact ⟨e, getElem?_append_some h1, h2⟩
  · intro i e j hi hj
    have hi' : (t.entries ++ [⟨p, n, t.index (hash p t.capacity)⟩])[i]? = some e := hi
    show _ ∧ ∃ e', (t.entries ++ [_])[j]? = some e' ∧ hash e'.value t.capacity = hash e.value t.capacity
    rcases getElem?_concat hi' with h1 | ⟨rfl, rfl⟩
    · obtain ⟨h2, e', h3, h4⟩ := h.next i e j h1 hj
      exact ⟨h2, e', getElem?_append_some h3, h4⟩
    · obtain ⟨e', h1, h2⟩ := h.head _ j hj
      exact ⟨(List.getElem?_eq_some_iff.1 h1).1, e', getElem?_append_some h1, h2⟩
  · intro i e hi
    have hi' : (t.entries ++ [⟨p, n, t.index (hash p t.capacity)⟩])[i]? = some e := hi
    show InChain (t.entries ++ [⟨p, n, t.index (hash p t.capacity)⟩])
      (if hash e.value t.capacity = hash p t.capacity then some t.entries.length else t.index (hash e.value t.capacity)) i
    rcases getElem?_concat hi' with h1 | ⟨rfl, rfl⟩
    · have h2 := (h.cover i e h1).append (es' := [⟨p, n, t.index (hash p t.capacity)⟩])
      by_cases hc : hash e.value t.capacity = hash p t.capacity
      · rw [if_pos hc]
        rw [hc] at h2
        exact .there List.getElem?_concat_length h2
      · rw [if_neg hc]; exact h2
    · rw [if_pos rfl]; exact .here _
  · show ((t.entries ++ [(⟨p, n, t.index (hash p t.capacity)⟩ : Entry)]).map (·.value)).Nodup
    rw [List.map_append, List.nodup_append]
    refine ⟨h.nodup, by simp, ?_⟩
    intro a ha b hb
    obtain ⟨e, he, rfl⟩ := List.mem_map.1 ha
    rw [List.map_singleton, List.mem_singleton] at hb
    subst hb
    exact hp e he
  · show (t.entries ++ [_]).map _ = _
    rw [List.map_append]; rfl

theorem Table.findLoop_some {t : Table} {p : Nat} : ∀ (f : Nat) (st : Option Nat) (i : Nat), t.findLoop p f st = some i →
    ∃ e, t.entries[i]? = some e ∧ e.value = p
  | 0, _, _, h => by cases h
  | f + 1, none, _, h => by cases h
  | f + 1, some j, i, h => by
    unfold Table.findLoop at h
    split at h
    · cases h
    · rename_i e he
      by_cases hv : e.value = p
      · rw [if_pos hv] at h
        cases h
        exact ⟨e, he, hv⟩
      · rw [if_neg hv] at h
        exact findLoop_some f _ i h

theorem Table.Ok.findLoop {t : Table} (h : t.Ok) {p i : Nat} {e : Entry} (hi : t.entries[i]? = some e) (hp : e.value = p) {st : Option Nat}
    (hc : InChain t.entries st i) : ∀ f, (∀ j, st = some j → j < f) → ∃ i', t.findLoop p f st = some i' := by
  induction hc with
  | here i =>
    intro f hf
    cases f with
    | zero => exact absurd (hf i rfl) (by omega)
    | succ f =>
      refine ⟨i, ?_⟩
      unfold Table.findLoop
      rw [hi]
      simp only
      rw [if_pos hp]
  | there h1 h2 ih =>
    rename_i i j e'
    intro f hf
    cases f with
    | zero => exact absurd (hf j rfl) (by omega)
    | succ f =>
      unfold Table.findLoop
      rw [h1]
      simp only
      by_cases hv : e'.value = p
      · exact ⟨j, if_pos hv⟩
      · rw [if_neg hv]
        refine ih hi f fun k hk => ?_
        have := (h.next j e' k h1 hk).1
        have := hf j rfl
        omega

/-- An object is found exactly if it is there. -/
theorem Table.Ok.find {t : Table} (h : t.Ok) (p : Nat) :
    (∃ i e, t.find p = some i ∧ t.entries[i]? = some e ∧ e.value = p) ∨ (t.find p = none ∧ ∀ e ∈ t.entries, e.value ≠ p) := by
  by_cases hp : ∃ e ∈ t.entries, e.value = p
  · left
    obtain ⟨e, he, rfl⟩ := hp
    obtain ⟨i, hi⟩ := List.mem_iff_getElem?.1 he
    obtain ⟨i', h1⟩ := h.findLoop hi rfl (h.cover i e hi) (t.entries.length + 1) fun j hj => by
      obtain ⟨e', h2, _⟩ := h.head _ j hj
      have := (List.getElem?_eq_some_iff.1 h2).1
      omega
    obtain ⟨e', h2, h3⟩ := Table.findLoop_some _ _ _ h1
    exact ⟨i', e', h1, h2, h3⟩
  · right
    refine ⟨?_, fun e he hv => hp ⟨e, he, hv⟩⟩
    cases hf : t.find p with
    | none => rfl
    | some i =>
      obtain ⟨e, h1, h2⟩ := Table.findLoop_some _ _ _ hf
      exact absurd ⟨e, List.mem_of_getElem? h1, h2⟩ hp

theorem Table.Ok.inj {t : Table} (h : t.Ok) {i j : Nat} {e e' : Entry} (hi : t.entries[i]? = some e) (hj : t.entries[j]? = some e')
    (hv : e.value = e'.value) : i = j := by
  have hl := (List.getElem?_eq_some_iff.1 hi).1
  refine (List.getElem?_inj (by simpa using hl) h.nodup).1 ?_
  rw [List.getElem?_map, List.getElem?_map, hi, hj, Option.map_some, Option.map_some, hv]

theorem Table.Ok.number {t : Table} (h : t.Ok) (p n : Nat) : t.number p = some n ↔ (p, n) ∈ t.pairs := by
  unfold Table.number Table.pairs
  rw [List.mem_map]
  rcases h.find p with ⟨i, e, h1, h2, h3⟩ | ⟨h1, h2⟩
  · rw [h1]
    simp only [Option.bind_some, h2, Option.map_some, Option.some.injEq]
    constructor
    · rintro rfl
      exact ⟨e, List.mem_of_getElem? h2, by rw [h3]⟩
    · rintro ⟨e', h4, h5⟩
      injection h5 with h5 h6
      obtain ⟨j, hj⟩ := List.mem_iff_getElem?.1 h4
      have := h.inj h2 hj (by rw [h3, h5])
      subst this
      rw [h2] at hj
      cases hj
      exact h6
  · rw [h1]
    simp only [Option.bind_none, reduceCtorEq, false_iff]
    rintro ⟨e, h3, h4⟩
    injection h4 with h4 _
    exact h2 e h3 h4

/-! ### Growing -/

/-- The entries of a chain. -/
def Table.chain (t : Table) : Nat → Option Nat → List Nat
  | 0, _ => []
  | _ + 1, none => []
  | f + 1, some j =>
    match t.entries[j]? with
    | none => []
    | some e => j :: t.chain f e.next

/-- Entries of another table are added. -/
def Table.addAll (old : Table) : List Nat → Table → Option Table
  | [], t => some t
  | j :: js, t =>
    match old.entries[j]? with
    | none => none
    | some e =>
      match t.add e.value e.number with
      | none => none
      | some (t, _) => old.addAll js t

theorem Table.addAll_append {old : Table} : ∀ (a b : List Nat) (t : Table), old.addAll (a ++ b) t = (old.addAll a t).bind (old.addAll b)
  | [], b, t => rfl
  | j :: a, b, t => by
    simp only [List.cons_append, Table.addAll]
    cases old.entries[j]? with
    | none => rfl
    | some e =>
      simp only
      cases t.add e.value e.number with
      | none => rfl
      | some r => exact addAll_append a b r.1

theorem Table.Ok.moveChain {old : Table} (h : old.Ok) : ∀ (f : Nat) (st : Option Nat) (t : Table), (∀ j, st = some j → j < old.entries.length) →
    old.moveChain f st t = old.addAll (old.chain f st) t
  | 0, _, _, _ => rfl
  | f + 1, none, _, _ => rfl
  | f + 1, some j, t, hj => by
    unfold Table.moveChain Table.chain
    have hl := hj j rfl
    have he := List.getElem?_eq_getElem hl
    rw [he]
    simp only [Table.addAll, he]
    cases t.add (old.entries[j]).value (old.entries[j]).number with
    | none => rfl
    | some r =>
      exact moveChain h f _ r.1 fun k hk => by
        have := (h.next j _ k he hk).1
        omega

theorem Table.Ok.moveChains {old : Table} (h : old.Ok) : ∀ (n i : Nat) (t : Table),
    old.moveChains n i t = old.addAll ((List.range' i n).flatMap fun b => old.chain (old.entries.length + 1) (old.index b)) t
  | 0, _, _ => rfl
  | n + 1, i, t => by
    unfold Table.moveChains
    rw [List.range'_succ, List.flatMap_cons, Table.addAll_append, h.moveChain]
    · cases old.addAll (old.chain (old.entries.length + 1) (old.index i)) t with
      | none => rfl
      | some r => exact moveChains h n (i + 1) r
    · intro j hj
      obtain ⟨e, h1, _⟩ := h.head i j hj
      exact (List.getElem?_eq_some_iff.1 h1).1

theorem Table.Ok.addAll {old : Table} (ho : old.Ok) : ∀ (js : List Nat) (t : Table), t.Ok → js.Nodup → (∀ j ∈ js, j < old.entries.length) →
    (∀ j ∈ js, ∀ e, old.entries[j]? = some e → ∀ e' ∈ t.entries, e'.value ≠ e.value) → t.entries.length + js.length ≤ t.capacity →
    ∃ t', old.addAll js t = some t' ∧ t'.Ok ∧ t'.capacity = t.capacity ∧
      t'.pairs = t.pairs ++ js.filterMap fun j => old.entries[j]?.map fun e => (e.value, e.number)
  | [], t, h, _, _, _, _ => ⟨t, rfl, h, rfl, by simp⟩
  | j :: js, t, h, hn, hj, hd, hl => by
    have hjl := hj j List.mem_cons_self
    have he := List.getElem?_eq_getElem hjl
    rw [List.length_cons] at hl
    obtain ⟨t1, a1, a2, a3, a4, e1, a5, a6⟩ := h.add (p := (old.entries[j]).value) (n := (old.entries[j]).number) (by omega)
      (hd j List.mem_cons_self _ he)
    have hn' := List.nodup_cons.1 hn
    obtain ⟨t2, b1, b2, b3, b4⟩ := Table.Ok.addAll ho js t1 a2 hn'.2 (fun k hk => hj k (List.mem_cons_of_mem _ hk)) (fun k hk e hke e' he' => by
      rw [a5, List.mem_append, List.mem_singleton] at he'
      rcases he' with he' | rfl
      · exact hd k (List.mem_cons_of_mem _ hk) e hke e' he'
      · rw [a6]
        intro hv
        have : j = k := ho.inj he hke hv
        subst this
        exact hn'.1 hk) (by rw [a5, a3, List.length_append, List.length_singleton]; omega)
    refine ⟨t2, ?_, b2, by omega, ?_⟩
    · unfold Table.addAll
      rw [he]
      simp only [a1]
      exact b1
    · rw [b4, a4, List.filterMap_cons, he]
      simp

theorem Table.Ok.chain_spec {t : Table} (h : t.Ok) : ∀ (f : Nat) (st : Option Nat) (b : Nat),
    (∀ j, st = some j → ∃ e, t.entries[j]? = some e ∧ hash e.value t.capacity = b) →
    (t.chain f st).Nodup ∧ ∀ i ∈ t.chain f st, (∀ j, st = some j → i ≤ j) ∧ ∃ e, t.entries[i]? = some e ∧ hash e.value t.capacity = b
  | 0, _, _, _ => ⟨List.nodup_nil, fun _ h => by cases h⟩
  | f + 1, none, _, _ => ⟨List.nodup_nil, fun _ h => by cases h⟩
  | f + 1, some j, b, hs => by
    obtain ⟨e, h1, h2⟩ := hs j rfl
    unfold Table.chain
    rw [h1]
    simp only
    obtain ⟨r1, r2⟩ := chain_spec h f e.next b (fun k hk => by
      obtain ⟨_, e', h3, h4⟩ := h.next j e k h1 hk
      exact ⟨e', h3, h4.trans h2⟩)
    have hlt : ∀ i ∈ t.chain f e.next, i < j := by
      intro i hi
      cases hn : e.next with
      | none => rw [hn] at hi; cases f <;> cases hi
      | some k =>
        have := (r2 i hi).1 k hn
        have := (h.next j e k h1 hn).1
        omega
    refine ⟨List.nodup_cons.2 ⟨fun hj => Nat.lt_irrefl _ (hlt j hj), r1⟩, fun i hi => ?_⟩
    rcases List.mem_cons.1 hi with rfl | hi
    · exact ⟨fun k hk => by cases hk; exact Nat.le_refl _, e, h1, h2⟩
    · exact ⟨fun k hk => by cases hk; exact Nat.le_of_lt (hlt i hi), (r2 i hi).2⟩

theorem Table.Ok.chain_mem {t : Table} (h : t.Ok) {st : Option Nat} {i : Nat} (hc : InChain t.entries st i) (hi : i < t.entries.length) :
    ∀ f, (∀ j, st = some j → j < f) → i ∈ t.chain f st := by
  induction hc with
  | here i =>
    intro f hf
    cases f with
    | zero => exact absurd (hf i rfl) (by omega)
    | succ f =>
      unfold Table.chain
      rw [List.getElem?_eq_getElem hi]
      exact List.mem_cons_self
  | there h1 h2 ih =>
    rename_i i j e
    intro f hf
    cases f with
    | zero => exact absurd (hf j rfl) (by omega)
    | succ f =>
      unfold Table.chain
      rw [h1]
      refine List.mem_cons_of_mem _ (ih hi f fun k hk => ?_)
      have := (h.next j e k h1 hk).1
      have := hf j rfl
      omega

theorem nodup_flatMap {f : Nat → List Nat} : ∀ (n i : Nat), (∀ b, (f b).Nodup) → (∀ b b' x, x ∈ f b → x ∈ f b' → b = b') →
    ((List.range' i n).flatMap f).Nodup
  | 0, _, _, _ => List.nodup_nil
  | n + 1, i, h1, h2 => by
    rw [List.range'_succ, List.flatMap_cons, List.nodup_append]
    refine ⟨h1 i, nodup_flatMap n (i + 1) h1 h2, fun a ha b hb e => ?_⟩
    subst e
    obtain ⟨c, hc, hb⟩ := List.mem_flatMap.1 hb
    have := h2 _ _ _ ha hb
    have := (List.mem_range'_1.1 hc).1
    omega

/-- A table that is full is replaced by one with the same objects and numbers. -/
theorem Table.Ok.grow {t : Table} (h : t.Ok) : ∃ t', t.moveChains t.capacity 0 (.empty (t.capacity * 2)) = some t' ∧ t'.Ok ∧
    t'.capacity = t.capacity * 2 ∧ t'.entries.length = t.entries.length ∧ ∀ x, x ∈ t'.pairs ↔ x ∈ t.pairs := by
  rw [h.moveChains]
  have hsp := fun b => h.chain_spec (t.entries.length + 1) (t.index b) b (h.head b)
  have hnd := nodup_flatMap (f := fun b => t.chain (t.entries.length + 1) (t.index b)) t.capacity 0 (fun b => (hsp b).1) (fun b b' x hx hx' => by
    obtain ⟨e, e1, e2⟩ := ((hsp b).2 x hx).2
    obtain ⟨e', e3, e4⟩ := ((hsp b').2 x hx').2
    rw [e1] at e3
    cases e3
    rw [← e2, ← e4])
  have hmem : ∀ i, i ∈ ((List.range' 0 t.capacity).flatMap fun b => t.chain (t.entries.length + 1) (t.index b)) ↔ i < t.entries.length := by
    intro i
    rw [List.mem_flatMap]
    constructor
    · rintro ⟨b, _, hi⟩
      obtain ⟨e, e1, _⟩ := ((hsp b).2 i hi).2
      exact (List.getElem?_eq_some_iff.1 e1).1
    · intro hi
      have he := List.getElem?_eq_getElem hi
      refine ⟨_, List.mem_range'_1.2 ⟨Nat.zero_le _, ?_⟩, h.chain_mem (h.cover i _ he) hi _ fun j hj => ?_⟩
      · rw [Nat.zero_add]; exact hash_lt h.pos
      · obtain ⟨e, h1, _⟩ := h.head _ j hj
        have := (List.getElem?_eq_some_iff.1 h1).1
        omega
  generalize ((List.range' 0 t.capacity).flatMap fun b => t.chain (t.entries.length + 1) (t.index b)) = L at hnd hmem ⊢
  have hlen : L.length = t.entries.length := by
    apply Nat.le_antisymm
    · have := List.Nodup.length_le_of_subset hnd (l₂ := List.range t.entries.length) (fun x hx => List.mem_range.2 ((hmem x).1 hx))
      rwa [List.length_range] at this
    · have := List.Nodup.length_le_of_subset (List.nodup_range (n := t.entries.length)) (l₂ := L) (fun x hx => (hmem x).2 (List.mem_range.1 hx))
      rwa [List.length_range] at this
  have hpos := h.pos
  have hsize := h.size
  obtain ⟨t', h1, h2, h3, h4⟩ := h.addAll L (.empty (t.capacity * 2)) (Table.empty_ok (by omega)) hnd (fun j hj => (hmem j).1 hj)
    (fun _ _ _ _ _ hx => by cases hx) (by
      show 0 + L.length ≤ t.capacity * 2
      omega)
  have hp : t'.pairs = L.filterMap fun j => t.entries[j]?.map fun e => (e.value, e.number) := by
    rw [h4]; rfl
  refine ⟨t', h1, h2, h3, ?_, fun x => ?_⟩
  · have e1 : t'.pairs.length = t'.entries.length := List.length_map _
    rw [← e1, hp, ← hlen]
    clear hp hlen hnd h1 h4
    have : ∀ l : List Nat, (∀ j ∈ l, j < t.entries.length) → (l.filterMap fun j => t.entries[j]?.map fun e => (e.value, e.number)).length = l.length := by
      intro l
      induction l with
      | nil => intro _; rfl
      | cons a l ih =>
        intro hl
        rw [List.filterMap_cons, List.getElem?_eq_getElem (hl a List.mem_cons_self)]
        simp [ih fun j hj => hl j (List.mem_cons_of_mem _ hj)]
    exact this L fun j hj => (hmem j).1 hj
  · rw [hp, List.mem_filterMap]
    unfold Table.pairs
    rw [List.mem_map]
    constructor
    · rintro ⟨j, _, hj⟩
      obtain ⟨e, h5, rfl⟩ := Option.map_eq_some_iff.1 hj
      exact ⟨e, List.mem_of_getElem? h5, rfl⟩
    · rintro ⟨e, he, rfl⟩
      obtain ⟨j, hj⟩ := List.mem_iff_getElem?.1 he
      exact ⟨j, (hmem j).2 (List.getElem?_eq_some_iff.1 hj).1, by rw [hj]; rfl⟩

/-! ### The table as a function -/

/-- The table is in order, and says what `m` says. -/
def Holds (t : Table) (m : Nat → Option Nat) : Prop := t.Ok ∧ ∀ p, t.number p = m p

/-- A function, changed at one place. -/
def put (m : Nat → Option Nat) (p n : Nat) : Nat → Option Nat := fun q => if q = p then some n else m q

theorem modify_get {l : List Entry} {i k n : Nat} {e : Entry} (h : (l.modify i fun e => { e with number := n })[k]? = some e) :
    ∃ e0, l[k]? = some e0 ∧ e.value = e0.value ∧ e.next = e0.next ∧ e.number = if i = k then n else e0.number := by
  rw [List.getElem?_modify] at h
  obtain ⟨e0, h1, rfl⟩ := Option.map_eq_some_iff.1 (show Option.map _ _ = _ from h)
  refine ⟨e0, h1, ?_⟩
  by_cases hk : i = k
  · rw [if_pos hk, if_pos hk]; exact ⟨rfl, rfl, rfl⟩
  · rw [if_neg hk, if_neg hk]; exact ⟨rfl, rfl, rfl⟩

theorem get_modify {l : List Entry} {i k n : Nat} {e0 : Entry} (h : l[k]? = some e0) :
    (l.modify i fun e => { e with number := n })[k]? = some { e0 with number := if i = k then n else e0.number } := by
  rw [List.getElem?_modify, h]
  show some (if i = k then _ else _) = _
  by_cases hk : i = k
  · rw [if_pos hk, if_pos hk]
  · rw [if_neg hk, if_neg hk]

theorem InChain.modify {l : List Entry} {i n : Nat} {st : Option Nat} {k : Nat} (h : InChain l st k) :
    InChain (l.modify i fun e => { e with number := n }) st k := by
  induction h with
  | here i => exact .here _
  | there h7 h8 ih => exact .there (get_modify h7) ih

theorem Table.Ok.setNumber {t : Table} (h : t.Ok) (i n : Nat) : (t.setNumber i n).Ok := by
  refine ⟨h.pos, ?_, ?_, ?_, ?_, ?_⟩
  · show (t.entries.modify i _).length ≤ _
    rw [List.length_modify]; exact h.size
  · intro b j hb
    obtain ⟨e, h1, h2⟩ := h.head b j hb
    exact ⟨_, get_modify h1, h2⟩
  · intro k e j hk hj
    obtain ⟨e0, h1, h2, h3, _⟩ := modify_get hk
    rw [h3] at hj
    obtain ⟨h4, e', h5, h6⟩ := h.next k e0 j h1 hj
    refine ⟨h4, _, get_modify h5, ?_⟩
    show hash e'.value t.capacity = hash e.value t.capacity
    rw [h6, h2]
  · intro k e hk
    obtain ⟨e0, h1, h2, h3, _⟩ := modify_get hk
    have := h.cover k e0 h1
    rw [h2]
    exact this.modify
  · show ((t.entries.modify i _).map (·.value)).Nodup
    have : (t.entries.modify i fun e => { e with number := n }).map (·.value) = t.entries.map (·.value) := by
      apply List.ext_getElem?
      intro k
      rw [List.getElem?_map, List.getElem?_map]
      cases hk : t.entries[k]? with
      | none => rw [List.getElem?_eq_none (by rw [List.length_modify]; exact List.getElem?_eq_none_iff.1 hk)]
      | some e => rw [get_modify hk]; rfl
    rw [this]
    exact h.nodup

theorem Table.setNumber_last {t t' : Table} {p n : Nat} {e : Entry} (h : t'.entries = t.entries ++ [e]) (he : e.value = p) :
    (t'.setNumber t.entries.length n).pairs = t.pairs ++ [(p, n)] := by
  unfold Table.pairs Table.setNumber
  simp only [h]
  apply List.ext_getElem?
  intro k
  rw [List.getElem?_map]
  rcases Nat.lt_trichotomy k t.entries.length with hk | hk | hk
  · rw [get_modify (getElem?_append_some (List.getElem?_eq_getElem hk)), List.getElem?_append_left (by simpa using hk), List.getElem?_map,
      List.getElem?_eq_getElem hk]
    rw [if_neg (by omega)]
  · subst hk
    rw [get_modify List.getElem?_concat_length, List.getElem?_append_right (by simp), if_pos rfl]
    simp [he]
  · rw [List.getElem?_eq_none (by simp; omega), List.getElem?_eq_none (by simp; omega)]
    rfl

theorem Table.Ok.not_mem {t : Table} (h : t.Ok) {p : Nat} (hp : t.number p = none) : ∀ e ∈ t.entries, e.value ≠ p := by
  intro e he hv
  have : t.number p = some e.number := (h.number p e.number).2 (List.mem_map.2 ⟨e, he, by rw [hv]⟩)
  rw [hp] at this
  cases this

/-- A new object, with its number. -/
theorem Holds.add {t : Table} {m : Nat → Option Nat} (h : Holds t m) {p n : Nat} (hp : m p = none) :
    ∃ t' i, HeapWalk.add (some t) p = some (t', i) ∧ Holds (t'.setNumber i n) (put m p n) := by
  have fin : ∀ t0 : Table, t0.Ok → (∀ x, x ∈ t0.pairs ↔ x ∈ t.pairs) → t0.entries.length < t0.capacity →
      ∃ t' i, t0.add p 0 = some (t', i) ∧ Holds (t'.setNumber i n) (put m p n) := by
    intro t0 h0 hx hl
    have hnum : ∀ q, t0.number q = m q := by
      intro q
      rw [← h.2 q]
      apply Option.ext
      intro y
      rw [h0.number, h.1.number]
      exact hx (q, y)
    obtain ⟨t1, a1, a2, a3, a4, e1, a5, a6⟩ := h0.add (p := p) (n := 0) hl (h0.not_mem (by rw [hnum, hp]))
    refine ⟨t1, _, a1, a2.setNumber _ _, fun q => ?_⟩
    apply Option.ext
    intro y
    rw [(a2.setNumber _ _).number, Table.setNumber_last a5 a6, List.mem_append, ← h0.number, hnum]
    unfold put
    by_cases hq : q = p
    · subst hq
      rw [if_pos rfl, hp]
      simp [eq_comm]
    · rw [if_neg hq]
      simp [hq]
  by_cases hc : t.entries.length = t.capacity
  · obtain ⟨t0, g1, g2, g3, g4, g5⟩ := h.1.grow
    obtain ⟨t', i, h1, h2⟩ := fin t0 g2 g5 (by have := h.1.pos; omega)
    refine ⟨t', i, ?_, h2⟩
    unfold HeapWalk.add
    simp only
    rw [if_pos hc, g1]
    exact h1
  · obtain ⟨t', i, h1, h2⟩ := fin t h.1 (fun _ => Iff.rfl) (by have := h.1.size; omega)
    refine ⟨t', i, ?_, h2⟩
    unfold HeapWalk.add
    simp only
    rw [if_neg hc]
    exact h1

theorem Holds.first (p n : Nat) : ∃ t' i, HeapWalk.add none p = some (t', i) ∧ Holds (t'.setNumber i n) (put (fun _ => none) p n) := by
  have h : Holds (Table.empty 4096) (fun _ => none) := ⟨Table.empty_ok (by omega), fun p => rfl⟩
  obtain ⟨t', i, h1, h2⟩ := h.add (p := p) (n := n) rfl
  refine ⟨t', i, ?_, h2⟩
  have : HeapWalk.add (some (Table.empty 4096)) p = (Table.empty 4096).add p 0 := by
    unfold HeapWalk.add
    exact if_neg (show ¬ 0 = 4096 by omega)
  rw [this] at h1
  exact h1

/-! ### The stack -/

/-- The blocks of the stack hold these entries, and no block but the first is empty. -/
def Stk (b : Blocks) (l : List (Nat × Nat)) : Prop := b.flatten = l ∧ ∀ x ∈ b.tail, x ≠ []

theorem Stk.push {b : Blocks} {l : List (Nat × Nat)} (h : Stk b l) (e : Nat × Nat) : Stk (push b e) (e :: l) := by
  cases b with
  | nil =>
    obtain ⟨h1, _⟩ := h
    subst h1
    exact ⟨rfl, fun _ h => by cases h⟩
  | cons b bs =>
    unfold HeapWalk.push
    simp only
    by_cases hc : b.length = blockCapacity
    · rw [if_pos hc]
      refine ⟨by rw [← h.1]; rfl, fun x hx => ?_⟩
      have hx' : x ∈ b :: bs := hx
      rcases List.mem_cons.1 hx' with rfl | hx
      · intro e; rw [e] at hc; cases hc
      · exact h.2 x hx
    · rw [if_neg hc]
      exact ⟨by rw [← h.1]; rfl, h.2⟩

theorem Stk.pop_nil {b : Blocks} (h : Stk b []) : pop b = .nothing := by
  match b, h with
  | [], _ => rfl
  | [[]], _ => rfl
  | (e :: b) :: bs, h => exact absurd h.1 (by simp)
  | [] :: c :: bs, h =>
    have := h.2 c List.mem_cons_self
    have h1 := h.1
    cases c with
    | nil => exact absurd rfl this
    | cons e c => exact absurd h1 (by simp)

theorem Stk.pop_cons {b : Blocks} {e : Nat × Nat} {l : List (Nat × Nat)} (h : Stk b (e :: l)) : ∃ b', pop b = .entry e b' ∧ Stk b' l := by
  match b, h with
  | [], h => exact absurd h.1 (by simp)
  | [[]], h => exact absurd h.1 (by simp)
  | (e' :: b) :: bs, h =>
    have h1 : e' :: (b ++ bs.flatten) = e :: l := h.1
    injection h1 with h1 h2
    subst h1
    exact ⟨b :: bs, rfl, h2, h.2⟩
  | [] :: [] :: bs, h => exact absurd rfl (h.2 [] List.mem_cons_self)
  | [] :: (e' :: c) :: bs, h =>
    have h1 : e' :: (c ++ bs.flatten) = e :: l := h.1
    injection h1 with h1 h2
    subst h1
    exact ⟨c :: bs, rfl, h2, fun x hx => h.2 x (List.mem_cons_of_mem _ hx)⟩

end Avian.HeapWalk
