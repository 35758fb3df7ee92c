import Verif.Heap.Room
import Verif.Props.Remember
import Verif.Props.Bits
import Verif.Util.Math

/-
C79: a collection has reserved room for every object it keeps.
-/
namespace Avian.Room

open Avian.Remember

/-! ### The capacity of a segment -/

theorem search_ok (fp : Nat → Nat) (hfp : ∀ a b, a ≤ b → fp a ≤ fp b) (target m top0 : Nat) :
    ∀ fuel top bottom cap, m ≤ bottom → bottom ≤ cap → cap ≤ top → top ≤ top0 → (fp top > target ∨ top = top0 ∧ cap = top) →
      (bottom = m ∨ fp bottom < target) → (cap = bottom → top ≤ bottom + 1) →
      top - bottom + (if top = cap then 1 else 0) < fuel →
      ∃ c, search fp target fuel top bottom cap = some c ∧ m ≤ c ∧ c ≤ top0 ∧ (fp c ≤ target ∨ c = m) ∧
        (c = top0 ∨ c = m ∨ fp (c + 1) ≥ target) := by
  intro fuel
  induction fuel with
  | zero => intro top bottom cap _ _ _ _ _ _ _ h; omega
  | succ fuel ih =>
    intro top bottom cap hm hb hc ht htop hbot hcb hf
    unfold search
    by_cases h1 : fp cap > target
    · rw [if_pos h1]
      by_cases h2 : bottom = cap
      · rw [if_pos h2]
        have : cap = m := by
          rcases hbot with h | h
          · omega
          · rw [h2] at h; omega
        exact ⟨cap, rfl, by omega, by omega, .inr this, .inr (.inl this)⟩
      · rw [if_neg h2]
        by_cases h3 : fp (cap - 1) ≤ target
        · rw [if_pos h3]
          refine ⟨cap - 1, rfl, by omega, by omega, .inl h3, .inr (.inr ?_)⟩
          have : cap - 1 + 1 = cap := by omega
          rw [this]; omega
        · rw [if_neg h3]
          have ha : avg bottom cap = (bottom + cap) / 2 := rfl
          refine ih cap bottom (avg bottom cap) hm (by omega) (by omega) (by omega) (.inl h1) hbot (by omega) ?_
          have e : (if cap = avg bottom cap then 1 else 0) = 0 := if_neg (by omega)
          rw [e]
          by_cases h4 : top = cap
          · rw [if_pos h4] at hf; omega
          · rw [if_neg h4] at hf; omega
    · rw [if_neg h1]
      by_cases h2 : fp cap < target
      · rw [if_pos h2]
        by_cases h3 : top = cap ∨ fp (cap + 1) ≥ target
        · rw [if_pos h3]
          refine ⟨cap, rfl, by omega, by omega, .inl (by omega), ?_⟩
          rcases h3 with h3 | h3
          · rcases htop with h | h
            · rw [h3] at h; omega
            · exact .inl (by omega)
          · exact .inr (.inr h3)
        · rw [if_neg h3]
          have h4 : ¬ top = cap := fun e => h3 (.inl e)
          have h5 : ¬ fp (cap + 1) ≥ target := fun e => h3 (.inr e)
          have h6 : fp top > target := by
            rcases htop with h | h
            · exact h
            · omega
          have h7 : top ≠ cap + 1 := by
            intro e; rw [e] at h6; omega
          have ha : avg top cap = (top + cap) / 2 := rfl
          refine ih top cap (avg top cap) (by omega) (by omega) (by omega) ht (.inl h6) (.inr h2) (by omega) ?_
          have e : (if top = avg top cap then 1 else 0) = 0 := if_neg (by omega)
          rw [e]
          rw [if_neg h4] at hf
          by_cases hcb' : cap = bottom
          · have := hcb hcb'; omega
          · omega
      · rw [if_neg h2]
        refine ⟨cap, rfl, by omega, by omega, .inl (by omega), .inr (.inr ?_)⟩
        have := hfp cap (cap + 1) (by omega)
        omega

theorem request_range (fp : Nat → Nat) (m : Nat) : ∀ fuel ok cap c, m ≤ cap → request fp m fuel ok cap = some c → m ≤ c ∧ c ≤ cap := by
  intro fuel
  induction fuel with
  | zero => intro ok cap c _ h; simp [request] at h
  | succ fuel ih =>
    intro ok cap c hm h
    unfold request at h
    by_cases h0 : ok 0 = true
    · rw [if_pos h0] at h; cases h; omega
    · rw [if_neg h0] at h
      by_cases h1 : cap > m
      · rw [if_pos h1] at h
        have ha : avg m cap = (m + cap) / 2 := rfl
        have := ih _ _ c (by omega) h
        omega
      · rw [if_neg h1] at h
        by_cases h2 : ok 1 = true
        · rw [if_pos h2] at h; cases h; omega
        · rw [if_neg h2] at h; cases h

theorem request_first (fp : Nat → Nat) (m fuel : Nat) (ok : Nat → Bool) (cap : Nat) (h : ok 0 = true) (hf : 0 < fuel) :
    request fp m fuel ok cap = some cap := by
  obtain ⟨fuel, rfl⟩ : ∃ k, fuel = k + 1 := ⟨fuel - 1, by omega⟩
  unfold request
  rw [if_pos h]

/-- Making a segment fails only if all requests fail, of which there are at least two. -/
theorem request_none (fp : Nat → Nat) (m : Nat) : ∀ fuel ok cap, m ≤ cap → cap - m < fuel → request fp m fuel ok cap = none →
    ok 0 = false ∧ ok 1 = false := by
  intro fuel
  induction fuel with
  | zero => intro ok cap _ h; omega
  | succ fuel ih =>
    intro ok cap hm hf h
    unfold request at h
    by_cases h0 : ok 0 = true
    · rw [if_pos h0] at h; cases h
    · rw [if_neg h0] at h
      have h0' : ok 0 = false := by cases e : ok 0 <;> simp_all
      by_cases h1 : cap > m
      · rw [if_pos h1] at h
        have ha : avg m cap = (m + cap) / 2 := rfl
        exact ⟨h0', (ih _ _ (by omega) (by omega) h).1⟩
      · rw [if_neg h1] at h
        by_cases h2 : ok 1 = true
        · rw [if_pos h2] at h; cases h
        · exact ⟨h0', by cases e : ok 1 <;> simp_all⟩

/-- The search always ends, and never leaves the range. -/
theorem firstCapacity_ok (fp : Nat → Nat) (hfp : ∀ a b, a ≤ b → fp a ≤ fp b) (desired m : Nat) (available : Int) (hm : m ≤ desired) :
    ∃ c, firstCapacity fp desired m available = some c ∧ m ≤ c ∧ c ≤ desired ∧
      (0 ≤ available → available < 4294967296 →
        ((fp c : Int) ≤ available ∨ c = m) ∧ (c = desired ∨ c = m ∨ (fp (c + 1) : Int) ≥ available)) := by
  unfold firstCapacity
  by_cases h : (fp desired : Int) > available
  · rw [if_pos h]
    obtain ⟨c, e, h1, h2, h3, h4⟩ := search_ok fp hfp (unsignedOf available) m desired (desired + 2) desired m desired (Nat.le_refl _) hm
      (Nat.le_refl _) (Nat.le_refl _) (.inr ⟨rfl, rfl⟩) (.inl rfl) (by omega) (by rw [if_pos rfl]; omega)
    refine ⟨c, e, h1, h2, ?_⟩
    intro ha hb
    have et : (unsignedOf available : Int) = available := by
      unfold unsignedOf
      omega
    exact ⟨by omega, by omega⟩
  · rw [if_neg h]
    exact ⟨desired, rfl, hm, Nat.le_refl _, fun _ _ => ⟨.inl (by omega), .inl rfl⟩⟩

/-- **C79 (size of a segment).** The capacity of a new segment lies between the smallest and the desired one, whatever requests
    for memory fail.  If the first request succeeds and the memory available is not negative, the segment fits into the memory
    available or has the smallest capacity, and it is the largest such segment, up to one word. -/
theorem capacity_ok_partial (fp : Nat → Nat) (hfp : ∀ a b, a ≤ b → fp a ≤ fp b) (desired minimum : Nat) (available : Int) (ok : Nat → Bool)
    (hm : minimum ≤ desired) :
    (∀ c, capacity fp desired minimum available ok = some c → minimum ≤ c ∧ c ≤ desired) ∧
    (capacity fp desired minimum available ok = none → ok 0 = false ∧ ok 1 = false) ∧
    (0 < desired → 0 ≤ available → available < 4294967296 → ok 0 = true → ∃ c, capacity fp desired minimum available ok = some c ∧
      ((fp c : Int) ≤ available ∨ c = max 1 minimum) ∧ (c = desired ∨ c = max 1 minimum ∨ (fp (c + 1) : Int) ≥ available)) := by
  unfold capacity
  by_cases hd : desired = 0
  · rw [if_pos hd]
    refine ⟨fun c h => ?_, (fun h => by cases h), fun h => by omega⟩
    cases h; omega
  · rw [if_neg hd]
    simp only
    have em : (if minimum = 0 then 1 else minimum) = max 1 minimum := by split <;> omega
    rw [em]
    obtain ⟨c, e, h1, h2, h3⟩ := firstCapacity_ok fp hfp desired (max 1 minimum) available (by omega)
    rw [e]
    simp only
    refine ⟨?_, ?_, ?_⟩
    · intro c' h
      have := request_range fp _ _ _ _ _ h1 h
      omega
    · intro h
      exact request_none fp _ _ _ _ h1 (by omega) h
    · intro _ ha hb hok
      exact ⟨c, request_first _ _ _ _ _ hok (by omega), h3 ha hb⟩

theorem size_up (k : Nat → Nat) (n a b : Nat) (h : a ≤ b) : Remember.footprint k a n ≤ Remember.footprint k b n := by
  have hs : ∀ s, calculateSize a s 1 ≤ calculateSize b s 1 := by
    intro s
    unfold calculateSize
    refine Nat.div_le_div_right ?_
    have : (a + s - 1) / s ≤ (b + s - 1) / s := Nat.div_le_div_right (by omega)
    omega
  induction n with
  | zero => exact hs _
  | succ n ih =>
    unfold Remember.footprint
    have := hs (k (n + 1))
    omega

/-- The memory of a generation grows with its capacity. -/
theorem footprint1_mono (a b : Nat) (h : a ≤ b) : footprint1 a ≤ footprint1 b := by
  unfold footprint1 calculateSize
  split <;> split <;> omega

theorem footprint2_mono (a b : Nat) (h : a ≤ b) : footprint2 a ≤ footprint2 b := by
  unfold footprint2
  have := size_up gen2Scale 2 a b h
  split <;> split <;> omega

/-- A new old generation of at least 1000 and at most 2000000 words with memory for one million words. -/
example : ∃ c, capacity footprint2 2000000 1000 1000000 (fun _ => true) = some c ∧ 1000 ≤ c ∧ c ≤ 2000000 ∧
    ((footprint2 c : Int) ≤ 1000000 ∨ c = 1000) := by
  obtain ⟨h1, _, h3⟩ := capacity_ok_partial footprint2 footprint2_mono 2000000 1000 1000000 (fun _ => true) (by decide)
  obtain ⟨c, e, h, _⟩ := h3 (by decide) (by decide) (by decide) rfl
  exact ⟨c, e, (h1 c e).1, (h1 c e).2, h⟩

example : capacity (fun c => c + c / 4) 100 10 70 (fun _ => true) = some 55 := by decide
example : capacity (fun c => c + c / 4) 100 10 70 (fun i => i == 2) = some 21 := by decide

/-- **C79, refuted for negative amounts.** If less than no memory is available (the rest of the virtual machine uses more than
    the limit), the number is taken for a large positive one and the largest capacity is chosen instead of the smallest. -/
theorem negative_available (fp : Nat → Nat) (desired minimum : Nat) (available : Int) (ok : Nat → Bool) (hd : 0 < desired)
    (hok : ok 0 = true) (hf : fp desired ≤ unsignedOf available) : capacity fp desired minimum available ok = some desired := by
  unfold capacity
  rw [if_neg (by omega)]
  simp only
  have e : firstCapacity fp desired (if minimum = 0 then 1 else minimum) available = some desired := by
    unfold firstCapacity
    split
    · unfold search
      rw [if_neg (by omega)]
      split
      · rw [if_pos (.inl rfl)]
      · rfl
    · rfl
  rw [e]
  exact request_first _ _ _ _ _ hok (by omega)

example : capacity footprint2 1048576 100 (-1) (fun _ => true) = some 1048576 :=
  negative_available _ _ _ _ _ (by decide) rfl (by decide +kernel)

/-! ### Sums over objects -/

def sum (f : Obj → Nat) (l : List Obj) : Nat := (l.map f).sum

theorem sum_nil (f : Obj → Nat) : sum f [] = 0 := rfl

theorem sum_cons (f : Obj → Nat) (o : Obj) (l : List Obj) : sum f (o :: l) = f o + sum f l := by
  simp [sum]

theorem sum_append (f : Obj → Nat) (l m : List Obj) : sum f (l ++ m) = sum f l + sum f m := by
  simp [sum]

theorem sum_snoc (f : Obj → Nat) (l : List Obj) (o : Obj) : sum f (l ++ [o]) = sum f l + f o := by
  simp [sum]

theorem sum_erase (f : Obj → Nat) : ∀ (l : List Obj) (o : Obj), o ∈ l → sum f l = f o + sum f (l.erase o) := by
  intro l
  induction l with
  | nil => intro o h; simp at h
  | cons a l ih =>
    intro o h
    by_cases e : a = o
    · subst e; rw [List.erase_cons_head, sum_cons]
    · have he : (a :: l).erase o = a :: l.erase o := by
        rw [List.erase_cons_tail]
        simp [e]
      have hm : o ∈ l := by
        rcases List.mem_cons.1 h with h | h
        · exact absurd h.symm e
        · exact h
      have := ih o hm
      rw [he, sum_cons, sum_cons]
      omega

theorem sum_le (f g : Obj → Nat) : ∀ l : List Obj, (∀ o ∈ l, f o ≤ g o) → sum f l ≤ sum g l := by
  intro l
  induction l with
  | nil => intro _; exact Nat.le_refl _
  | cons a l ih =>
    intro h
    rw [sum_cons, sum_cons]
    have h1 := h a (by simp)
    have h2 := ih (fun o ho => h o (by simp [ho]))
    omega

theorem sum_add (f g : Obj → Nat) : ∀ l : List Obj, sum (fun o => f o + g o) l = sum f l + sum g l := by
  intro l
  induction l with
  | nil => rfl
  | cons a l ih => rw [sum_cons, sum_cons, sum_cons, ih]; omega

theorem sum_filter (f : Obj → Nat) (p : Obj → Bool) (l : List Obj) : sum f (l.filter p) ≤ sum f l := by
  induction l with
  | nil => exact Nat.le_refl _
  | cons a l ih =>
    rw [List.filter_cons]
    by_cases h : p a = true
    · rw [if_pos h, sum_cons, sum_cons]; omega
    · rw [if_neg h, sum_cons]; omega

theorem sum_zero (f : Obj → Nat) (l : List Obj) (h : ∀ o ∈ l, f o = 0) : sum f l = 0 := by
  induction l with
  | nil => rfl
  | cons a l ih => rw [sum_cons, h a (by simp), ih (fun o ho => h o (by simp [ho]))]

/-- Weights: `v` if the object is where `p` says. -/
def young (p : Place) : Bool :=
  match p with
  | .young age => age ≠ TenureThreshold
  | _ => false

def inThread (p : Place) : Bool :=
  match p with
  | .thread => true
  | _ => false

def tenured (p : Place) : Bool :=
  match p with
  | .young age => age = TenureThreshold
  | _ => false

def old (p : Place) : Bool :=
  match p with
  | .old => true
  | _ => false

def wt (p : Place → Bool) (f : Obj → Nat) (o : Obj) : Nat := if p o.place then f o else 0

def one (o : Obj) : Nat := if o.taken then 1 else 0

/-- The state of an object agrees with the number of collections it survived. -/
def Aged (o : Obj) : Prop :=
  match o.place with
  | .thread => o.survived = 0
  | .young age => o.survived = age + 1 ∧ age ≤ TenureThreshold
  | .old => TenureThreshold + 2 ≤ o.survived

/-- The invariant between collections. -/
structure Inv (h : Heap) : Prop where
  size : ∀ o ∈ h.objs, o.size ≤ o.words
  aged : ∀ o ∈ h.objs, Aged o
  young : sum (wt young Obj.words) h.objs + h.tenureFootprint ≤ h.position1
  tenured : sum (wt tenured Obj.words) h.objs ≤ h.tenureFootprint
  thread : sum (wt inThread Obj.words) h.objs ≤ footprint h.threads
  old : sum (wt old Obj.words) h.objs ≤ h.position2
  room1 : h.position1 ≤ h.capacity1
  room2 : h.position2 ≤ h.capacity2
  padding1 : sum (wt Room.young one) h.objs + sum (wt inThread one) h.objs ≤ h.padding1
  tenurePadding : sum (wt Room.tenured one) h.objs ≤ h.tenurePadding
  padding2 : sum (wt Room.old one) h.objs ≤ h.padding2

theorem inv_start : Inv start := by
  refine ⟨?_, ?_, ?_, ?_, ?_, ?_, ?_, ?_, ?_, ?_, ?_⟩ <;> simp [start, sum_nil, footprint]

/-! ### Steps between collections -/

theorem footprint_append (l m : List ThreadHeap) : footprint (l ++ m) = footprint l + footprint m := by
  simp [footprint]

theorem footprint_modify (f : ThreadHeap → ThreadHeap) (n : Nat)
    (hf : ∀ t, (f t).offset + (f t).index + (f t).backup = t.offset + t.index + t.backup + n) :
    ∀ (ts : List ThreadHeap) (i : Nat), i < ts.length → footprint (ts.modify i f) = footprint ts + n := by
  intro ts
  induction ts with
  | nil => intro i h; simp at h
  | cons a ts ih =>
    intro i h
    cases i with
    | zero =>
      have := hf a
      simp only [List.modify_zero_cons, footprint, List.map_cons, List.sum_cons]
      omega
    | succ i =>
      have h' : i < ts.length := by simpa using h
      have := ih i h'
      simp only [List.modify_succ_cons, footprint, List.map_cons, List.sum_cons] at this ⊢
      omega

theorem modify_out (f : ThreadHeap → ThreadHeap) : ∀ (ts : List ThreadHeap) (i : Nat), ts.length ≤ i → ts.modify i f = ts := by
  intro ts
  induction ts with
  | nil => intro i _; cases i <;> rfl
  | cons a ts ih =>
    intro i h
    cases i with
    | zero => simp at h
    | succ i =>
      rw [List.modify_succ_cons, ih i (by simpa using h)]

theorem footprint_keep (f : ThreadHeap → ThreadHeap)
    (hf : ∀ t, (f t).offset + (f t).index + (f t).backup = t.offset + t.index + t.backup) (ts : List ThreadHeap) (i : Nat) :
    footprint (ts.modify i f) = footprint ts := by
  by_cases h : i < ts.length
  · exact footprint_modify f 0 hf ts i h
  · rw [modify_out f ts i (by omega)]

/-- Adding an object in the memory of a thread. -/
theorem inv_add {h : Heap} (hi : Inv h) (ts : List ThreadHeap) (id words size : Nat) (hs : size ≤ words)
    (hf : footprint ts = footprint h.threads + words) :
    Inv { h with threads := ts, objs := h.objs ++ [⟨id, words, size, false, .thread, 0⟩] } := by
  obtain ⟨i1, i2, i3, i4, i5, i6, i7, i8, i9, i10, i11⟩ := hi
  refine ⟨?_, ?_, ?_, ?_, ?_, ?_, i7, i8, ?_, ?_, ?_⟩ <;> simp only [sum_snoc, hf]
  · intro o ho
    rcases List.mem_append.1 ho with ho | ho
    · exact i1 o ho
    · rw [List.mem_singleton.1 ho]; exact hs
  · intro o ho
    rcases List.mem_append.1 ho with ho | ho
    · exact i2 o ho
    · rw [List.mem_singleton.1 ho]; rfl
  all_goals simp only [wt, Room.young, inThread, Room.tenured, Room.old, one]
  all_goals simp
  all_goals omega

theorem take_ok (id : Nat) : ∀ (l : List Obj) (r : List Obj × Place), take id l = some r →
    (∀ f : Obj → Nat, (∀ o, f { o with taken := true } = f o) → sum f r.1 = sum f l) ∧
    (∀ p, sum (wt p one) r.1 ≤ sum (wt p one) l + if p r.2 then 1 else 0) ∧
    (∀ P : Obj → Prop, (∀ o, P o → P { o with taken := true }) → (∀ o ∈ l, P o) → ∀ o ∈ r.1, P o) := by
  intro l
  induction l with
  | nil => intro r h; simp [take] at h
  | cons a l ih =>
    intro r h
    unfold take at h
    by_cases e : a.id = id
    · rw [if_pos e] at h
      cases h
      refine ⟨?_, ?_, ?_⟩
      · intro f hf; rw [sum_cons, sum_cons, hf]
      · intro p
        simp only [sum_cons, wt, one]
        split <;> simp <;> omega
      · intro P hP hl o ho
        rcases List.mem_cons.1 ho with rfl | ho
        · exact hP _ (hl a (by simp))
        · exact hl o (by simp [ho])
    · rw [if_neg e] at h
      split at h
      · cases h
      · rename_i q hq
        cases h
        obtain ⟨h1, h2, h3⟩ := ih q hq
        refine ⟨?_, ?_, ?_⟩
        · intro f hf; rw [sum_cons, sum_cons, h1 f hf]
        · intro p
          have := h2 p
          simp only [sum_cons]
          omega
        · intro P hP hl o ho
          rcases List.mem_cons.1 ho with rfl | ho
          · exact hl _ (by simp)
          · exact h3 P hP (fun o ho => hl o (by simp [ho])) o ho

theorem inv_hash {h : Heap} (hi : Inv h) (id : Nat) : Inv (hash h id) := by
  unfold hash
  split
  · exact hi
  · rename_i r hr
    obtain ⟨h1, h2, h3⟩ := take_ok id _ r hr
    obtain ⟨i1, i2, i3, i4, i5, i6, i7, i8, i9, i10, i11⟩ := hi
    have w := fun p => h1 (wt p Obj.words) (fun _ => rfl)
    have y := h2 Room.young
    have t := h2 inThread
    have n := h2 Room.tenured
    have l := h2 Room.old
    have z := h3 (fun o => o.size ≤ o.words) (fun _ h => h) i1
    have g := h3 Aged (fun _ h => h) i2
    rw [← w] at i3 i4 i5 i6
    obtain ⟨objs, place⟩ := r
    simp only at *
    unfold pad
    split
    · rename_i age
      split
      · rename_i e
        refine ⟨z, g, i3, i4, i5, i6, i7, i8, ?_, ?_, ?_⟩ <;> simp_all [Room.young, inThread, Room.tenured, Room.old] <;> omega
      · rename_i e
        refine ⟨z, g, i3, i4, i5, i6, i7, i8, ?_, ?_, ?_⟩ <;> simp_all [Room.young, inThread, Room.tenured, Room.old] <;> omega
    · refine ⟨z, g, i3, i4, i5, i6, i7, i8, ?_, ?_, ?_⟩ <;> simp_all [Room.young, inThread, Room.tenured, Room.old] <;> omega
    · refine ⟨z, g, i3, i4, i5, i6, i7, i8, ?_, ?_, ?_⟩ <;> simp_all [Room.young, inThread, Room.tenured, Room.old] <;> omega

/-! ### Collection -/

structure ColInv (major : Bool) (padding2 : Nat) (c : Col) : Prop where
  size : ∀ o ∈ c.src, o.size ≤ o.words
  aged : ∀ o ∈ c.src, Aged o
  dsize : ∀ o ∈ c.dst, o.size ≤ o.words
  daged : ∀ o ∈ c.dst, Aged o
  clean : ∀ o ∈ c.dst, o.taken = false ∧ o.place ≠ .thread
  next1 : c.next1 + sum (wt young copiedSize) c.src + sum (wt inThread copiedSize) c.src ≤ c.cap1
  dyoung : sum (wt young Obj.words) c.dst + c.tenure ≤ c.next1
  dten : sum (wt tenured Obj.words) c.dst ≤ c.tenure
  minor : major = false → c.gen2 + sum (wt tenured copiedSize) c.src ≤ c.cap2 ∧
    sum (wt old Obj.words) c.src + sum (wt old Obj.words) c.dst ≤ c.gen2 ∧ sum (wt old one) c.src ≤ padding2
  major : major = true → c.next2 + sum (wt tenured copiedSize) c.src + sum (wt old copiedSize) c.src ≤ c.capN2 ∧
    sum (wt old Obj.words) c.dst ≤ c.next2

theorem mem_snoc {P : Obj → Prop} {l : List Obj} {x : Obj} (h : ∀ o ∈ l, P o) (hx : P x) : ∀ o ∈ l ++ [x], P o := by
  intro o ho
  rcases List.mem_append.1 ho with ho | ho
  · exact h o ho
  · rw [List.mem_singleton.1 ho]; exact hx

theorem update_ok {major : Bool} {padding2 : Nat} {c : Col} (hc : ColInv major padding2 c) (id : Nat) :
    ∃ c', update major c id = some c' ∧ ColInv major padding2 c' ∧ c'.cap1 = c.cap1 ∧ c'.cap2 = c.cap2 ∧ c'.capN2 = c.capN2 := by
  unfold update
  split
  · exact ⟨c, rfl, hc, rfl, rfl, rfl⟩
  · rename_i o ho
    have hm : o ∈ c.src := List.mem_of_find?_eq_some ho
    by_cases hskip : major = false ∧ o.place = .old
    · rw [if_pos hskip]; exact ⟨c, rfl, hc, rfl, rfl, rfl⟩
    · rw [if_neg hskip]
      obtain ⟨c1, c2, c3, c4, c5, c6, c7, c8, c9, c10⟩ := hc
      have S := fun f => sum_erase f c.src o hm
      have z : ∀ x ∈ c.src.erase o, x.size ≤ x.words := fun x hx => c1 x (List.mem_of_mem_erase hx)
      have g : ∀ x ∈ c.src.erase o, Aged x := fun x hx => c2 x (List.mem_of_mem_erase hx)
      have go := c2 o hm
      rw [S (wt young copiedSize), S (wt inThread copiedSize)] at c6
      rw [S (wt tenured copiedSize), S (wt old Obj.words), S (wt old one)] at c9
      rw [S (wt tenured copiedSize), S (wt old copiedSize)] at c10
      unfold copy2
      cases hp : o.place with
      | old =>
        have hmaj : major = true := by
          cases e : major
          · exact absurd ⟨e, hp⟩ hskip
          · rfl
        subst hmaj
        rw [if_pos rfl]
        unfold toNext2
        obtain ⟨c10, c11⟩ := c10 rfl
        simp only [wt, young, inThread, tenured, old, hp] at c6 c10 c11
        simp at c6 c10 c11
        rw [if_pos (by simp only; omega)]
        refine ⟨_, rfl, ⟨z, g, mem_snoc c3 (Nat.le_refl _), mem_snoc c4 ?_, mem_snoc c5 ⟨rfl, by simp [moved]⟩, ?_, ?_, ?_, ?_, ?_⟩,
          rfl, rfl, rfl⟩
        · simp only [Aged, hp] at go
          simp only [Aged, moved]; omega
        · simp only; omega
        · simp only [sum_snoc]; simp [wt, moved, young]; omega
        · simp only [sum_snoc]; simp [wt, moved, tenured]; omega
        · intro h; cases h
        · intro _
          simp only [sum_snoc]; simp [wt, moved, old]; constructor <;> omega
      | thread =>
        simp only
        unfold toNext1
        simp only [wt, young, inThread, tenured, old, hp] at c6 c9 c10
        simp at c6 c9 c10
        rw [if_pos (by simp only; omega)]
        refine ⟨_, rfl, ⟨z, g, mem_snoc c3 (Nat.le_refl _), mem_snoc c4 ?_, mem_snoc c5 ⟨rfl, by simp [moved]⟩, ?_, ?_, ?_, ?_, ?_⟩,
          rfl, rfl, rfl⟩
        · simp only [Aged, hp] at go
          simp only [Aged, moved]; exact ⟨by omega, by decide⟩
        · simp only; omega
        · simp only [sum_snoc]; simp [wt, moved, young, TenureThreshold]; omega
        · simp only [sum_snoc]; simp [wt, moved, tenured, TenureThreshold]; omega
        · intro h
          have := c9 h
          simp only [sum_snoc]; simp [wt, moved, old]; omega
        · intro h
          have := c10 h
          simp only [sum_snoc]; simp [wt, moved, old]; omega
      | young age =>
        simp only
        by_cases ha : age = TenureThreshold
        · rw [if_pos ha]
          simp only [wt, young, inThread, tenured, old, hp, ha] at c6 c9 c10
          simp at c6 c9 c10
          cases hmaj : major with
          | true =>
            obtain ⟨c10, c11⟩ := c10 hmaj
            rw [if_pos rfl]
            unfold toNext2
            rw [if_pos (by simp only; omega)]
            refine ⟨_, rfl, ⟨z, g, mem_snoc c3 (Nat.le_refl _), mem_snoc c4 ?_, mem_snoc c5 ⟨rfl, by simp [moved]⟩, ?_, ?_, ?_, ?_, ?_⟩,
              rfl, rfl, rfl⟩
            · simp only [Aged, hp] at go
              simp only [Aged, moved]; omega
            · simp only; omega
            · simp only [sum_snoc]; simp [wt, moved, young]; omega
            · simp only [sum_snoc]; simp [wt, moved, tenured]; omega
            · intro h; cases h
            · intro _
              simp only [sum_snoc]; simp [wt, moved, old]; constructor <;> omega
          | false =>
            obtain ⟨c9, c11, c12⟩ := c9 hmaj
            rw [if_neg (by simp)]
            unfold toGen2
            rw [if_pos (by simp only; omega)]
            refine ⟨_, rfl, ⟨z, g, mem_snoc c3 (Nat.le_refl _), mem_snoc c4 ?_, mem_snoc c5 ⟨rfl, by simp [moved]⟩, ?_, ?_, ?_, ?_, ?_⟩,
              rfl, rfl, rfl⟩
            · simp only [Aged, hp] at go
              simp only [Aged, moved]; omega
            · simp only; omega
            · simp only [sum_snoc]; simp [wt, moved, young]; omega
            · simp only [sum_snoc]; simp [wt, moved, tenured]; omega
            · intro _
              simp only [sum_snoc]; simp [wt, moved, old]; omega
            · intro h; cases h
        · rw [if_neg ha]
          unfold toNext1
          simp only [wt, young, inThread, tenured, old, hp] at c6 c9 c10
          simp [ha] at c6 c9 c10
          rw [if_pos (by simp only; omega)]
          refine ⟨_, rfl, ⟨z, g, mem_snoc c3 (Nat.le_refl _), mem_snoc c4 ?_, mem_snoc c5 ⟨rfl, by simp [moved]⟩, ?_, ?_, ?_, ?_, ?_⟩,
            rfl, rfl, rfl⟩
          · simp only [Aged, hp] at go
            simp only [Aged, moved]; omega
          · simp only; omega
          · simp only [sum_snoc]; simp [wt, moved, young]
            split <;> simp_all <;> omega
          · simp only [sum_snoc]; simp [wt, moved, tenured]
            split <;> omega
          · intro h
            have := c9 h
            simp only [sum_snoc]; simp [wt, moved, old]; omega
          · intro h
            have := c10 h
            simp only [sum_snoc]; simp [wt, moved, old]; omega

theorem updateAll_ok {major : Bool} {padding2 : Nat} : ∀ (order : List Nat) {c : Col}, ColInv major padding2 c →
    ∃ c', updateAll major c order = some c' ∧ ColInv major padding2 c' ∧ c'.cap1 = c.cap1 ∧ c'.cap2 = c.cap2 ∧ c'.capN2 = c.capN2 := by
  intro order
  induction order with
  | nil => intro c hc; exact ⟨c, rfl, hc, rfl, rfl, rfl⟩
  | cons id order ih =>
    intro c hc
    obtain ⟨c1, e1, h1, a1, a2, a3⟩ := update_ok hc id
    obtain ⟨c2, e2, h2, b1, b2, b3⟩ := ih h1
    refine ⟨c2, ?_, h2, b1.trans a1, b2.trans a2, b3.trans a3⟩
    unfold updateAll at e2 ⊢
    rw [List.foldlM_cons, e1]
    exact e2

theorem copied_le (p : Place → Bool) (l : List Obj) (h : ∀ o ∈ l, o.size ≤ o.words) :
    sum (wt p copiedSize) l ≤ sum (wt p Obj.words) l + sum (wt p one) l := by
  rw [← sum_add]
  refine sum_le _ _ l ?_
  intro o ho
  have := h o ho
  simp only [wt, copiedSize, one]
  split <;> omega

theorem desired2_ge (h : Heap) : minimum2 h ≤ desired2 h := by
  unfold desired2
  simp only
  split <;> split <;> omega

/-- A collection has room for all objects it meets, in whatever order, and leaves a heap for which the same is true. -/
theorem collect_room {h : Heap} (hi : Inv h) (x : Choices) :
    collect h x = .exhausted ∨ ∃ h', collect h x = .ok h' ∧ Inv h' := by
  unfold collect
  simp only
  split
  · exact .inl rfl
  · rename_i cap1 e1
    split
    · exact .inl rfl
    · rename_i capN2 e2
      right
      obtain ⟨i1, i2, i3, i4, i5, i6, i7, i8, i9, i10, i11⟩ := hi
      have k1 : minimum1 h ≤ cap1 := ((capacity_ok_partial _ footprint1_mono _ _ _ _ (Nat.le_refl _)).1 cap1 e1).1
      have y := copied_le young h.objs i1
      have t := copied_le inThread h.objs i1
      have n := copied_le tenured h.objs i1
      have l := copied_le old h.objs i1
      have C : ColInv (isMajor h x.forced) h.padding2 ⟨h.objs, [], 0, cap1, h.position2, h.capacity2, 0, capN2, 0⟩ := by
        refine ⟨i1, i2, by simp, by simp, by simp, ?_, by simp [sum_nil], by simp [sum_nil], ?_, ?_⟩
        · unfold minimum1 at k1
          simp only
          omega
        · intro hm
          unfold isMajor at hm
          simp only [Bool.or_eq_false_iff, decide_eq_false_iff_not] at hm
          simp only [sum_nil]
          omega
        · intro hm
          unfold newGen2 at e2
          rw [hm, if_pos rfl] at e2
          have k2 := ((capacity_ok_partial _ footprint2_mono _ _ _ _ (desired2_ge h)).1 capN2 e2).1
          unfold minimum2 at k2
          simp only [sum_nil]
          omega
      obtain ⟨c, e, hc, a1, a2, a3⟩ := updateAll_ok x.order C
      rw [e]
      refine ⟨_, rfl, ?_⟩
      obtain ⟨c1, c2, c3, c4, c5, c6, c7, c8, c9, c10⟩ := hc
      simp only at a1 a2 a3
      have dz : ∀ p, sum (wt p one) c.dst = 0 := by
        intro p
        refine sum_zero _ _ ?_
        intro o ho
        simp [wt, one, (c5 o ho).1]
      have dt : sum (wt inThread Obj.words) c.dst = 0 := by
        refine sum_zero _ _ ?_
        intro o ho
        have := (c5 o ho).2
        cases hp : o.place with
        | thread => exact absurd hp this
        | young age => simp [wt, inThread, hp]
        | old => simp [wt, inThread, hp]
      have F : ∀ (p : Place → Bool) (f : Obj → Nat), p .old = false → sum (wt p f) (c.src.filter (fun o => o.place = .old)) = 0 := by
        intro p f hp
        refine sum_zero _ _ ?_
        intro o ho
        have := (List.mem_filter.1 ho).2
        have hp' : o.place = .old := by simpa using this
        simp [wt, hp', hp]
      cases hm : isMajor h x.forced with
      | true =>
        obtain ⟨c10, c11⟩ := c10 hm
        unfold finish
        refine ⟨c3, c4, c7, c8, ?_, c11, ?_, ?_, ?_, ?_, ?_⟩ <;> simp only [if_pos, dz, dt]
        all_goals omega
      | false =>
        obtain ⟨c9, c11, c12⟩ := c9 hm
        unfold finish
        have q1 := sum_filter (wt old Obj.words) (fun o => o.place = .old) c.src
        have q2 := sum_filter (wt old one) (fun o => o.place = .old) c.src
        refine ⟨?_, ?_, ?_, ?_, ?_, ?_, ?_, ?_, ?_, ?_, ?_⟩ <;>
          simp only [Bool.false_eq_true, if_false, sum_append, dz, dt, F young _ rfl, F inThread _ rfl, F tenured _ rfl]
        · intro o ho
          rcases List.mem_append.1 ho with ho | ho
          · exact c1 o (List.mem_filter.1 ho).1
          · exact c3 o ho
        · intro o ho
          rcases List.mem_append.1 ho with ho | ho
          · exact c2 o (List.mem_filter.1 ho).1
          · exact c4 o ho
        all_goals omega

/-- Objects are not larger than the memory reserved for them. -/
def Fits : Op → Prop
  | .allocate _ _ words size => size ≤ words
  | .backup _ _ words size => size ≤ words
  | _ => True

theorem step_ok {h : Heap} (hi : Inv h) (op : Op) (hf : Fits op) : step h op = .exhausted ∨ ∃ h', step h op = .ok h' ∧ Inv h' := by
  have same : ∀ ts, footprint ts = footprint h.threads → Inv { h with threads := ts } := by
    intro ts e
    obtain ⟨i1, i2, i3, i4, i5, i6, i7, i8, i9, i10, i11⟩ := hi
    exact ⟨i1, i2, i3, i4, by simp only [e]; exact i5, i6, i7, i8, i9, i10, i11⟩
  cases op with
  | newThread =>
    refine .inr ⟨_, rfl, same _ ?_⟩
    rw [footprint_append]; rfl
  | allocate t id words size =>
    right
    simp only [step]
    split
    · rename_i ht
      refine ⟨_, rfl, inv_add hi _ id words size hf ?_⟩
      exact footprint_modify _ words (by intro t; simp only; omega) _ _ ht
    · exact ⟨_, rfl, hi⟩
  | backup t id words size =>
    right
    simp only [step]
    split
    · rename_i ht
      refine ⟨_, rfl, inv_add hi _ id words size hf ?_⟩
      exact footprint_modify _ words (by intro t; simp only; omega) _ _ ht
    · exact ⟨_, rfl, hi⟩
  | chunk t =>
    refine .inr ⟨_, rfl, same _ ?_⟩
    exact footprint_keep _ (by intro t; simp only; omega) _ _
  | useBackup t =>
    refine .inr ⟨_, rfl, same _ ?_⟩
    exact footprint_keep (fun x => { x with backupFlag := true }) (fun _ => rfl) _ _
  | hash id => exact .inr ⟨_, rfl, inv_hash hi id⟩
  | collect x => exact collect_room hi x

theorem run_ok : ∀ (ops : List Op) {h : Heap}, Inv h → (∀ op ∈ ops, Fits op) → run h ops = .exhausted ∨ ∃ h', run h ops = .ok h' ∧ Inv h' := by
  intro ops
  induction ops with
  | nil => intro h hi _; exact .inr ⟨h, rfl, hi⟩
  | cons op ops ih =>
    intro h hi hf
    unfold run
    rcases step_ok hi op (hf op (by simp)) with e | ⟨h', e, hi'⟩
    · rw [e]; exact .inl rfl
    · rw [e]; exact ih hi' (fun op ho => hf op (by simp [ho]))

/-- **C79.** Whatever objects are allocated by whatever threads, whatever hash codes are taken and however often, and whatever
    collections happen, whichever objects they keep in whichever order: no collection writes an object beyond the end of a
    generation, provided that no object is larger than the memory reserved for it. -/
theorem room_partial (ops : List Op) (hf : ∀ op ∈ ops, Fits op) : run start ops ≠ .overflow := by
  intro h
  rcases run_ok ops inv_start hf with e | ⟨h', e, _⟩
  · rw [h] at e; cases e
  · rw [h] at e; cases e

/-- The process ends for want of memory only if the system refuses a request at least twice in a row. -/
theorem exhausted_only {h : Heap} (x : Choices) (h1 : x.ok1 0 = true ∨ x.ok1 1 = true) (h2 : x.ok2 0 = true ∨ x.ok2 1 = true) :
    collect h x ≠ .exhausted := by
  unfold collect
  simp only
  split
  · rename_i e
    have := (capacity_ok_partial _ footprint1_mono _ _ _ _ (Nat.le_refl _)).2.1 e
    simp [this.1, this.2] at h1
  · split
    · rename_i e
      unfold newGen2 at e
      split at e
      · have := (capacity_ok_partial _ footprint2_mono _ _ _ _ (desired2_ge h)).2.1 e
        simp [this.1, this.2] at h2
      · cases e
    · split <;> simp

/-- **C79 (the reserve).** After a collection no thread has anything in its own memory that counts, and the reserve of a thread
    that was allowed to use it is whole again and closed; other threads keep what their reserve holds. -/
theorem reserve_again (h h' : Heap) (x : Choices) (e : collect h x = .ok h') (i : Nat) (t : ThreadHeap)
    (ht : h.threads[i]? = some t) :
    ∃ t', h'.threads[i]? = some t' ∧ t'.offset = 0 ∧ t'.backupFlag = false ∧
      (t.backupFlag = true → t'.backup = 0) ∧ (t.backupFlag = false → t'.backup = t.backup) ∧
      (t'.index ≠ 0 → x.full = true) := by
  unfold collect at e
  simp only at e
  split at e
  · cases e
  · split at e
    · cases e
    · split at e
      · cases e
      · injection e with e
        subst e
        refine ⟨postCollect x.full t, ?_, rfl, rfl, ?_, ?_, ?_⟩
        · simp only [finish, List.getElem?_map, ht, Option.map_some]
        · intro hb; simp [postCollect, hb]
        · intro hb; simp [postCollect, hb]
        · intro hn
          cases hf : x.full with
          | true => rfl
          | false => simp [postCollect, hf] at hn

/-- A thread that used three words of its reserve. -/
example : ∃ h', collect { start with threads := [⟨0, 5, 3, true⟩] } ⟨false, 0, fun _ => true, fun _ => true, [], false⟩ = .ok h' ∧
    h'.threads[0]? = some ⟨0, 0, 0, false⟩ := by
  refine ⟨_, rfl, rfl⟩

/-- **C79 (old objects).** An object is in the old generation exactly if five or more collections have kept it; before, it is in
    the young generation if any has. -/
theorem old_iff (ops : List Op) (hf : ∀ op ∈ ops, Fits op) (h : Heap) (hr : run start ops = .ok h) (o : Obj) (ho : o ∈ h.objs) :
    (o.place = .old ↔ 5 ≤ o.survived) ∧ (o.place = .thread ↔ o.survived = 0) := by
  rcases run_ok ops inv_start hf with e | ⟨h', e, hi⟩
  · rw [hr] at e; cases e
  · rw [hr] at e; cases e
    have := hi.aged o ho
    unfold Aged at this
    cases hp : o.place with
    | old => rw [hp] at this; simp only [TenureThreshold] at this; simp; omega
    | thread => rw [hp] at this; simp only at this; simp; omega
    | young age => rw [hp] at this; simp only [TenureThreshold] at this; simp; omega

/-- What the rest of the program decides in the examples: every request for memory succeeds. -/
def plenty (forced : Bool) (order : List Nat) : Choices := ⟨forced, 1000000, fun _ => true, fun _ => true, order, false⟩

/-- Two threads; the hash code of an object is taken in the memory of the thread, in the young generation, when it is about to be
    tenured and in the old generation. -/
def sampleOps : List Op :=
  [.newThread, .newThread, .allocate 0 1 4 3, .allocate 1 2 5 5, .hash 1, .hash 1, .chunk 1, .allocate 1 3 2 2, .collect (plenty false [2, 1]),
   .hash 2, .collect (plenty false [1, 2]), .collect (plenty false [1, 2]), .allocate 0 4 1 1, .collect (plenty false [4, 1, 2]), .hash 4,
   .collect (plenty false [2, 1, 4]), .collect (plenty true [4, 2])]

example : ∀ op ∈ sampleOps, Fits op := by
  simp [sampleOps, Fits]

def Res.objs : Res → List (Nat × Nat × Place)
  | .ok h => h.objs.map fun o => (o.id, o.words, o.place)
  | _ => []

example : (run start sampleOps).objs = [(4, 2, .young 2), (2, 6, .old)] := by decide +kernel

/-- **C79, refuted for clones.** An object that claims more memory than was reserved for it, as the clone of an array whose hash
    code was taken before the array was moved does (see C38), is written beyond the end of the young generation by the next
    collection that keeps it. -/
theorem clone_overflow (words : Nat) :
    run start [.newThread, .allocate 0 1 words (words + 1), .collect (plenty false [1])] = .overflow := by
  have hc : ∃ c, capacity footprint1 words words 9223372036854775807 (fun _ => true) = some c ∧ c = words := by
    obtain ⟨h1, h2, _⟩ := capacity_ok_partial footprint1 footprint1_mono words words 9223372036854775807 (fun _ => true) (Nat.le_refl _)
    cases e : capacity footprint1 words words 9223372036854775807 (fun _ => true) with
    | none => exact absurd (h2 e).1 (by simp)
    | some c =>
      have := h1 c e
      exact ⟨c, rfl, by omega⟩
  obtain ⟨c, e, rfl⟩ := hc
  simp only [run, step, newThread, start, allocateSmall, modifyThread]
  simp only [List.nil_append, List.length_singleton, Nat.lt_one_iff, if_true, List.modify_zero_cons]
  unfold collect
  have em : minimum1 ⟨[⟨1, c, c + 1, false, .thread, 0⟩], [⟨0, 0 + c, 0, false⟩], 0, 0, 0, 0, 0, 0, 0, 0⟩ = c := by
    simp [minimum1, footprint]
  simp only [em]
  have e' : capacity footprint1 c c 9223372036854775807 (plenty false [1]).ok1 = some c := e
  rw [e']
  have ej : isMajor ⟨[⟨1, c, c + 1, false, .thread, 0⟩], [⟨0, 0 + c, 0, false⟩], 0, 0, 0, 0, 0, 0, 0, 0⟩ (plenty false [1]).forced = false := by
    simp [isMajor, plenty, oversized, InitialGen2Capacity]
  simp only [ej, newGen2]
  simp only [Bool.false_eq_true, if_false]
  have eu : updateAll false ⟨[⟨1, c, c + 1, false, .thread, 0⟩], [], 0, c, 0, 0, 0, 0, 0⟩ (plenty false [1]).order = none := by
    simp [updateAll, plenty, update, copy2, toNext1, copiedSize]
  rw [eu]

/-! ### Ages -/

open Avian.Bits

/-- heap.cpp:706: the bits for an age, `max(1, log(TenureThreshold))` -/
def ageBits : Option Nat := (Avian.Math.log 4 3#32).map fun b => max 1 b.toNat

/-- The bits suffice for the ages up to `TenureThreshold`: an age that was recorded for a word is read back, whatever was recorded
    for other words afterwards. -/
theorem age_kept (m : Map) (w : Nat) (age : BitVec 32) (ha : age.toNat ≤ TenureThreshold) :
    ageBits = some 2 ∧ ((⟨m, 2, 1⟩ : SegMap).setOnly w age).get w = age ∧
    ∀ (v : Nat) (a : BitVec 32), v ≠ w → ((⟨m, 2, 1⟩ : SegMap).setOnly v a).get w = (⟨m, 2, 1⟩ : SegMap).get w := by
  refine ⟨by decide, ?_, ?_⟩
  · exact segMap_get_setOnly_same _ _ _ _ (by simp only [TenureThreshold] at ha; simp only; omega) rfl
  · intro v a hv
    exact segMap_get_setOnly_other _ _ _ _ (by simpa using fun e => hv e)

end Avian.Room
