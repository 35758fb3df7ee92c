import Verif.Heap.Remember
import Verif.Props.Bits

/-
C78: the collector finds every remembered word, and remembers every word it has to.
-/
namespace Avian.Remember

open Avian.Bits

variable {W : Type}

/-! ### Specification -/

/-- A word is marked on a level. -/
def B (scale : Nat → Nat) (s : St W) (k w : Nat) : Prop := bitAt (s.data k) (w / scale k) = true

/-- Whatever is marked on a level is marked on the next one, so that it is found from the highest level. -/
def H (scale : Nat → Nat) (k : Nat) (s : St W) : Prop := ∀ j, j < k → ∀ w, B scale s j w → B scale s (j + 1) w

/-- The scales of the levels fit each other. -/
structure Scales (scale : Nat → Nat) : Prop where
  one : scale 0 = 1
  pos : ∀ k, 0 < scale k
  dvd : ∀ k, scale k ∣ scale (k + 1)

theorem gen2_scales : Scales gen2Scale where
  one := rfl
  pos := by
    intro k
    match k with
    | 0 => decide
    | 1 => decide
    | k + 2 => show 0 < 4 * 1024 / 8 * 1024; decide
  dvd := by
    intro k
    match k with
    | 0 => decide
    | 1 => show 4 * 1024 / 8 ∣ 4 * 1024 / 8 * 1024; exact Nat.dvd_mul_right _ _
    | k + 2 => show 4 * 1024 / 8 * 1024 ∣ 4 * 1024 / 8 * 1024; exact Nat.dvd_refl _

/-- The marks that result from the events. -/
def replay : List Ev → (Nat → Prop) → Nat → Prop
  | [], m => m
  | .visit v :: es, m => replay es fun w => w ≠ v ∧ m w
  | .keep v :: es, m => replay es fun w => w = v ∨ m w
  | .set v :: es, m => replay es fun w => w = v ∨ m w

/-- What is demanded of the client: `need` are the words that refer to objects the next minor collection may move; a visit
    creates no such word without marking it, except the visited one if it refers out of the old generation. -/
structure Sound (c : Client W) (need : W → Nat → Prop) : Prop where
  need : ∀ world p w v, c.young world w = false → need (c.visit world p w).1 v →
    v ∈ (c.visit world p w).2.2 ∨ (v ≠ w ∧ need world v) ∨ (v = w ∧ c.inside (c.visit world p w).1 (c.visit world p w).2.1 w = false)
  grows : ∀ world p w, p ≤ (c.visit world p w).2.1
  within : ∀ world p w, ∀ v ∈ (c.visit world p w).2.2, v < (c.visit world p w).2.1

/-! ### Single bits -/

variable {scale : Nat → Nat}

theorem B_setOnly (s : St W) (k w j v : Nat) :
    B scale (setOnly scale s k w) j v ↔ B scale s j v ∨ (j = k ∧ v / scale k = w / scale k) := by
  unfold B setOnly put level SegMap.setOnly SegMap.indexOf
  simp only [Nat.mul_one]
  by_cases h : j = k
  · subst h
    simp only [if_true, bitAt_setBits]
    by_cases h2 : v / scale j = w / scale j
    · rw [if_pos (by omega)]
      have : w / scale j + 1 - 1 - v / scale j = 0 := by omega
      rw [this]
      simp [h2]
    · rw [if_neg (by omega)]
      simp [h2]
  · simp [h]

theorem B_clearOnly (s : St W) (k w j v : Nat) :
    B scale (clearOnly scale s k w) j v ↔ B scale s j v ∧ ¬ (j = k ∧ v / scale k = w / scale k) := by
  unfold B clearOnly put level SegMap.clearOnly SegMap.indexOf
  simp only [Nat.mul_one]
  by_cases h : j = k
  · subst h
    simp only [if_true, bitAt_clearBits, true_and]
    by_cases h2 : v / scale j = w / scale j
    · have : decide (w / scale j ≤ v / scale j ∧ v / scale j < w / scale j + 1) = true := by
        rw [decide_eq_true_iff]; omega
      rw [this]
      simp [h2]
    · have : decide (w / scale j ≤ v / scale j ∧ v / scale j < w / scale j + 1) = false := by
        rw [decide_eq_false_iff_not]; omega
      rw [this]
      simp [h2]
  · simp [h]

theorem B_setFrom (k : Nat) : ∀ (s : St W) (w j v : Nat),
    B scale (setFrom scale k s w) j v ↔ B scale s j v ∨ (j ≤ k ∧ v / scale j = w / scale j) := by
  induction k with
  | zero =>
    intro s w j v
    unfold setFrom
    rw [B_setOnly]
    constructor
    · rintro (h | ⟨rfl, h⟩)
      · exact .inl h
      · exact .inr ⟨Nat.le_refl _, h⟩
    · rintro (h | ⟨h1, h⟩)
      · exact .inl h
      · obtain rfl : j = 0 := by omega
        exact .inr ⟨rfl, h⟩
  | succ k ih =>
    intro s w j v
    unfold setFrom
    rw [ih, B_setOnly]
    constructor
    · rintro ((h | ⟨rfl, h⟩) | ⟨h1, h⟩)
      · exact .inl h
      · exact .inr ⟨Nat.le_refl _, h⟩
      · exact .inr ⟨by omega, h⟩
    · rintro (h | ⟨h1, h⟩)
      · exact .inl (.inl h)
      · by_cases hj : j = k + 1
        · subst hj; exact .inl (.inr ⟨rfl, h⟩)
        · exact .inr ⟨by omega, h⟩

theorem B_note (s : St W) (e : Ev) (j v : Nat) : B scale (note s e) j v ↔ B scale s j v := Iff.rfl

theorem B_mark (n : Nat) (s : St W) (w j v : Nat) :
    B scale (mark scale n s w) j v ↔ B scale s j v ∨ (j ≤ n ∧ v / scale j = w / scale j) := by
  unfold mark
  rw [B_note, B_setFrom]

theorem B_marks (n : Nat) : ∀ (l : List Nat) (s : St W) (j v : Nat),
    B scale (l.foldl (mark scale n) s) j v ↔ B scale s j v ∨ (j ≤ n ∧ ∃ w ∈ l, v / scale j = w / scale j) := by
  intro l
  induction l with
  | nil => intro s j v; simp
  | cons x l ih =>
    intro s j v
    rw [List.foldl_cons, ih, B_mark]
    constructor
    · rintro ((h | ⟨h1, h⟩) | ⟨h1, w, hw, h⟩)
      · exact .inl h
      · exact .inr ⟨h1, x, by simp, h⟩
      · exact .inr ⟨h1, w, by simp [hw], h⟩
    · rintro (h | ⟨h1, w, hw, h⟩)
      · exact .inl (.inl h)
      · rcases List.mem_cons.1 hw with rfl | hw
        · exact .inl (.inr ⟨h1, h⟩)
        · exact .inr ⟨h1, w, hw, h⟩

theorem setFrom_frame (k : Nat) : ∀ (s : St W) (w : Nat), (setFrom scale k s w).position = s.position ∧
    (setFrom scale k s w).world = s.world ∧ (setFrom scale k s w).log = s.log := by
  induction k with
  | zero => intro s w; exact ⟨rfl, rfl, rfl⟩
  | succ k ih => intro s w; unfold setFrom; exact ih _ _

theorem mark_frame (n : Nat) (s : St W) (w : Nat) : (mark scale n s w).position = s.position ∧
    (mark scale n s w).world = s.world ∧ (mark scale n s w).log = s.log ++ [.set w] := by
  obtain ⟨a, b, c⟩ := setFrom_frame (scale := scale) n s w
  exact ⟨a, b, by unfold mark note; simp only; rw [c]⟩

theorem marks_frame (n : Nat) : ∀ (l : List Nat) (s : St W), (l.foldl (mark scale n) s).position = s.position ∧
    (l.foldl (mark scale n) s).world = s.world ∧ (l.foldl (mark scale n) s).log = s.log ++ l.map .set := by
  intro l
  induction l with
  | nil => intro s; simp
  | cons x l ih =>
    intro s
    obtain ⟨a, b, c⟩ := ih (mark scale n s x)
    obtain ⟨a', b', c'⟩ := mark_frame (scale := scale) n s x
    rw [List.foldl_cons]
    exact ⟨a.trans a', b.trans b', by rw [c, c']; simp⟩

/-- Records of higher levels consist of records of lower levels. -/
theorem rec_up (hs : Scales scale) {k j : Nat} (h : k ≤ j) {v w : Nat} (e : v / scale k = w / scale k) : v / scale j = w / scale j := by
  induction h with
  | refl => exact e
  | step _ ih =>
    rename_i m _
    obtain ⟨q, hq⟩ := hs.dvd m
    rw [hq, ← Nat.div_div_eq_div_mul, ← Nat.div_div_eq_div_mul, ih]

/-! ### Invariants -/

/-- A word is marked on all levels above `k`. -/
def up (scale : Nat → Nat) (n k : Nat) (s : St W) (w : Nat) : Prop := ∀ j, k < j → j ≤ n → B scale s j w

theorem replay_append : ∀ (es fs : List Ev) (m : Nat → Prop), replay (es ++ fs) m = replay fs (replay es m) := by
  intro es
  induction es with
  | nil => intro fs m; rfl
  | cons e es ih => intro fs m; cases e <;> exact ih _ _

theorem replay_sets : ∀ (l : List Nat) (m : Nat → Prop) (w : Nat), replay (l.map .set) m w ↔ w ∈ l ∨ m w := by
  intro l
  induction l with
  | nil => intro m w; simp [replay]
  | cons x l ih =>
    intro m w
    simp only [List.map_cons, replay]
    rw [ih]
    simp only [List.mem_cons]
    constructor
    · rintro (h | h | h)
      · exact .inl (.inr h)
      · exact .inl (.inl h)
      · exact .inr h
    · rintro ((h | h) | h)
      · exact .inr (.inl h)
      · exact .inl h
      · exact .inr (.inr h)

/-- What holds all the time: marks are below `position()`, they are those the events leave, only marked words were visited, and
    the words that need it are marked. -/
structure J (scale : Nat → Nat) (n : Nat) (need : W → Nat → Prop) (m0 : Nat → Prop) (s : St W) : Prop where
  below : ∀ j, j ≤ n → ∀ r, bitAt (s.data j) r = true → r * scale j < s.position
  log : ∀ w, B scale s 0 w ↔ replay s.log m0 w
  visited : ∀ a b w, s.log = a ++ .visit w :: b → replay a m0 w
  need : ∀ w, need s.world w → B scale s 0 w

theorem below_of_B {n : Nat} {need : W → Nat → Prop} {m0 : Nat → Prop} {s : St W} (h : J scale n need m0 s) {j w : Nat} (hj : j ≤ n)
    (hb : B scale s j w) : w / scale j * scale j < s.position := h.below j hj _ hb

/-- The same in terms of words. -/
theorem below_iff (hs : Scales scale) (s : St W) (j : Nat) :
    (∀ r, bitAt (s.data j) r = true → r * scale j < s.position) ↔ ∀ w, B scale s j w → w / scale j * scale j < s.position := by
  constructor
  · intro h w hb; exact h _ hb
  · intro h r hb
    have e : r * scale j / scale j = r := Nat.mul_div_cancel _ (hs.pos j)
    have := h (r * scale j) (by unfold B; rw [e]; exact hb)
    rwa [e] at this

theorem J_up (hs : Scales scale) {n : Nat} {need : W → Nat → Prop} {m0 : Nat → Prop} {s t : St W} (h : J scale n need m0 s)
    (hp : t.position = s.position) (hw : t.world = s.world) (hl : t.log = s.log)
    (h0 : ∀ w, B scale t 0 w ↔ B scale s 0 w)
    (hb : ∀ j, j ≤ n → ∀ w, B scale t j w → w / scale j * scale j < s.position) : J scale n need m0 t where
  below := by
    intro j hj
    rw [below_iff hs, hp]
    exact hb j hj
  log := by intro w; rw [h0, hl]; exact h.log w
  visited := by rw [hl]; exact h.visited
  need := by intro w; rw [hw, h0]; exact h.need w

/-- What a record of level `k` being taken up does. -/
structure BodyPost (scale : Nat → Nat) (n : Nat) (need : W → Nat → Prop) (m0 : Nat → Prop) (k r : Nat) (s s' : St W) (d : Bool) :
    Prop where
  inv : J scale n need m0 s'
  pos : s.position ≤ s'.position
  log : s.log ⊆ s'.log
  hier : H scale k s'
  higher : ∀ j, k < j → ∀ w, B scale s' j w → B scale s j w ∨ up scale n j s' w
  other : ∀ w, w / scale k ≠ r → B scale s' k w → B scale s k w ∨ up scale n k s' w
  own : ∀ w, w / scale k = r → B scale s' k w → d = true ∨ up scale n k s' w
  keepHigher : ∀ j, k < j → ∀ w, B scale s j w → B scale s' j w
  keepOther : ∀ w, w / scale k ≠ r → ∀ j, B scale s j w → B scale s' j w
  visits : ∀ w, w / scale k = r → B scale s 0 w → Ev.visit w ∈ s'.log

/-- A range of words, in records of level `k`. -/
def In (scale : Nat → Nat) (k a b w : Nat) : Prop := a ≤ w / scale k * scale k ∧ w / scale k * scale k < b

/-- What `collect` of a range on level `k` does. -/
structure Post (scale : Nat → Nat) (n : Nat) (need : W → Nat → Prop) (m0 : Nat → Prop) (k a b : Nat) (s s' : St W) (d : Bool) :
    Prop where
  inv : J scale n need m0 s'
  pos : s.position ≤ s'.position
  log : s.log ⊆ s'.log
  hier : H scale k s'
  higher : ∀ j, k < j → ∀ w, B scale s' j w → B scale s j w ∨ up scale n j s' w
  other : ∀ w, ¬ In scale k a b w → B scale s' k w → B scale s k w ∨ up scale n k s' w
  own : ∀ w, In scale k a b w → B scale s' k w → d = true ∨ up scale n k s' w
  keepHigher : ∀ j, k < j → ∀ w, B scale s j w → B scale s' j w
  keepOther : ∀ w, ¬ In scale k a b w → ∀ j, B scale s j w → B scale s' j w
  visits : ∀ w, In scale k a b w → B scale s 0 w → Ev.visit w ∈ s'.log

/-! ### One word -/

theorem leaf_ok (hs : Scales scale) (c : Client W) {need : W → Nat → Prop} (hc : Sound c need) {m0 : Nat → Prop} (n : Nat) (s : St W)
    (h : J scale n need m0 s) (w : Nat) (hw : B scale s 0 w) :
    BodyPost scale n need m0 0 w s (leafBody scale c n s w).1 (leafBody scale c n s w).2 := by
  have h1 := hs.one
  have d1 : ∀ v, v / scale 0 = v := by intro v; rw [h1, Nat.div_one]
  have hpos : w < s.position := by
    have := below_of_B h (Nat.zero_le n) hw
    rw [d1, h1, Nat.mul_one] at this
    exact this
  -- after the mark was cleared
  have c0 : ∀ j v, B scale (note (clearOnly scale s 0 w) (.visit w)) j v ↔ B scale s j v ∧ ¬ (j = 0 ∧ v = w) := by
    intro j v
    rw [B_note, B_clearOnly, d1, d1]
  have l0 : (note (clearOnly scale s 0 w) (.visit w)).log = s.log ++ [.visit w] := rfl
  have r0 : ∀ v, replay (s.log ++ [.visit w]) m0 v ↔ v ≠ w ∧ B scale s 0 v := by
    intro v
    rw [replay_append]
    simp only [replay]
    rw [← h.log]
  have v0 : ∀ (tail : List Ev), (∀ v, Ev.visit v ∉ tail) → ∀ a b v, (s.log ++ [.visit w]) ++ tail = a ++ .visit v :: b → replay a m0 v := by
    intro tail ht a b v e
    rw [List.append_assoc] at e
    rcases List.append_eq_append_iff.1 e with ⟨a', e1, e2⟩ | ⟨c', e1, e2⟩
    · cases a' with
      | nil =>
        simp only [List.nil_append, List.cons_append, List.cons.injEq, Ev.visit.injEq] at e2
        rw [e1, List.append_nil, ← e2.1]
        exact (h.log w).1 hw
      | cons x a' =>
        simp only [List.cons_append, List.nil_append, List.cons.injEq] at e2
        exact absurd (by rw [e2.2]; simp) (ht v)
    · cases c' with
      | nil =>
        simp only [List.nil_append, List.cons_append, List.cons.injEq, Ev.visit.injEq] at e2
        rw [List.append_nil] at e1
        rw [← e1, e2.1]
        exact (h.log w).1 hw
      | cons x c' =>
        simp only [List.cons_append, List.cons.injEq] at e2
        rw [← e2.1] at e1
        exact h.visited a c' v e1
  unfold leafBody
  simp only
  by_cases hy : c.young (note (clearOnly scale s 0 w) (.visit w)).world w = true
  · rw [if_pos hy]
    have b' : ∀ j v, B scale (note (setOnly scale (note (clearOnly scale s 0 w) (.visit w)) 0 w) (.keep w)) j v ↔ B scale s j v := by
      intro j v
      rw [B_note, B_setOnly, c0, d1, d1]
      constructor
      · rintro (⟨h, _⟩ | ⟨rfl, rfl⟩)
        · exact h
        · exact hw
      · intro h
        by_cases e : j = 0 ∧ v = w
        · exact .inr e
        · exact .inl ⟨h, e⟩
    refine ⟨⟨?_, ?_, ?_, ?_⟩, Nat.le_refl _, ?_, ?_, ?_, ?_, ?_, ?_, ?_, ?_⟩
    · intro j hj
      rw [below_iff hs]
      intro v hv
      exact below_of_B h hj ((b' j v).1 hv)
    · intro v
      rw [b']
      show _ ↔ replay ((s.log ++ [.visit w]) ++ [.keep w]) m0 v
      rw [replay_append]
      simp only [replay]
      rw [r0]
      constructor
      · intro hv
        by_cases e : v = w
        · exact .inl e
        · exact .inr ⟨e, hv⟩
      · rintro (rfl | ⟨_, hv⟩)
        · exact hw
        · exact hv
    · exact v0 [.keep w] (by simp)
    · intro v hv
      rw [b']
      exact h.need v hv
    · intro e he
      show e ∈ (s.log ++ [.visit w]) ++ [.keep w]
      simp [he]
    · intro j hj; omega
    · intro j _ v hv; exact .inl ((b' j v).1 hv)
    · intro v _ hv; exact .inl ((b' 0 v).1 hv)
    · intro v _ _; exact .inl rfl
    · intro j _ v hv; exact (b' j v).2 hv
    · intro v _ j hv; exact (b' j v).2 hv
    · intro v hv _
      rw [d1] at hv
      subst hv
      show _ ∈ (s.log ++ [.visit v]) ++ [.keep v]
      simp
  · rw [if_neg hy]
    -- after the visit
    have hworld : (note (clearOnly scale s 0 w) (.visit w)).world = s.world := rfl
    have hposn : (note (clearOnly scale s 0 w) (.visit w)).position = s.position := rfl
    generalize hr : c.visit s.world s.position w = r
    have hneed := hc.need s.world s.position w
    have hy' : c.young s.world w = false := by
      cases e : c.young s.world w
      · rfl
      · exact absurd e hy
    have hgrow := hc.grows s.world s.position w
    have hin := hc.within s.world s.position w
    rw [hr] at hneed hgrow hin
    obtain ⟨world, p, l⟩ := r
    simp only at hneed hgrow hin
    have lv : leafVisit scale c n (note (clearOnly scale s 0 w) (.visit w)) w =
        l.foldl (mark scale n) { note (clearOnly scale s 0 w) (.visit w) with world := world, position := p } := by
      unfold leafVisit
      rw [hworld, hposn, hr]
    obtain ⟨f1, f2, f3⟩ := marks_frame (scale := scale) n l
      { note (clearOnly scale s 0 w) (.visit w) with world := world, position := p }
    rw [← lv] at f1 f2 f3
    have bl : ∀ j v, B scale (leafVisit scale c n (note (clearOnly scale s 0 w) (.visit w)) w) j v ↔
        (B scale s j v ∧ ¬ (j = 0 ∧ v = w)) ∨ (j ≤ n ∧ ∃ x ∈ l, v / scale j = x / scale j) := by
      intro j v
      rw [lv, B_marks]
      rw [← c0]
      rfl
    have belowl : ∀ j, j ≤ n → ∀ v, B scale (leafVisit scale c n (note (clearOnly scale s 0 w) (.visit w)) w) j v →
        v / scale j * scale j < p := by
      intro j hj v hv
      rw [bl] at hv
      rcases hv with ⟨hv, _⟩ | ⟨_, x, hx, e⟩
      · have := below_of_B h hj hv
        omega
      · have := hin x hx
        have := Nat.div_mul_le_self x (scale j)
        rw [e]
        omega
    have upl : ∀ j v x, x ∈ l → v / scale j = x / scale j →
        up scale n j (leafVisit scale c n (note (clearOnly scale s 0 w) (.visit w)) w) v := by
      intro j v x hx e i hi hn
      rw [bl]
      exact .inr ⟨hn, x, hx, rec_up hs (by omega) e⟩
    have higherl : ∀ j v, 0 < j → B scale (leafVisit scale c n (note (clearOnly scale s 0 w) (.visit w)) w) j v →
        B scale s j v ∨ up scale n j (leafVisit scale c n (note (clearOnly scale s 0 w) (.visit w)) w) v := by
      intro j v _ hv
      rw [bl] at hv
      rcases hv with ⟨hv, _⟩ | ⟨_, x, hx, e⟩
      · exact .inl hv
      · exact .inr (upl j v x hx e)
    have zerol : ∀ v, B scale (leafVisit scale c n (note (clearOnly scale s 0 w) (.visit w)) w) 0 v →
        (v ≠ w ∧ B scale s 0 v) ∨ up scale n 0 (leafVisit scale c n (note (clearOnly scale s 0 w) (.visit w)) w) v := by
      intro v hv
      rw [bl] at hv
      rcases hv with ⟨hv, ne⟩ | ⟨_, x, hx, e⟩
      · exact .inl ⟨fun e => ne ⟨rfl, e⟩, hv⟩
      · exact .inr (upl 0 v x hx e)
    have keepl : ∀ j v, ¬ (j = 0 ∧ v = w) → B scale s j v →
        B scale (leafVisit scale c n (note (clearOnly scale s 0 w) (.visit w)) w) j v := by
      intro j v ne hv
      rw [bl]
      exact .inl ⟨hv, ne⟩
    have logl : ∀ v, B scale (leafVisit scale c n (note (clearOnly scale s 0 w) (.visit w)) w) 0 v ↔
        replay ((s.log ++ [.visit w]) ++ l.map .set) m0 v := by
      intro v
      rw [replay_append, replay_sets, r0, bl]
      constructor
      · rintro (⟨hv, ne⟩ | ⟨_, x, hx, e⟩)
        · exact .inr ⟨fun e => ne ⟨rfl, e⟩, hv⟩
        · rw [d1, d1] at e
          exact .inl (e ▸ hx)
      · rintro (hv | ⟨ne, hv⟩)
        · exact .inr ⟨by omega, v, hv, rfl⟩
        · exact .inl ⟨hv, fun e => ne e.2⟩
    have f3' : (leafVisit scale c n (note (clearOnly scale s 0 w) (.visit w)) w).log = (s.log ++ [.visit w]) ++ l.map .set := f3
    simp only at f1 f2
    rw [f1, f2]
    generalize leafVisit scale c n (note (clearOnly scale s 0 w) (.visit w)) w = t at *
    by_cases hi : c.inside world p w = true
    · rw [if_pos hi]
      simp only
      refine ⟨⟨?_, ?_, ?_, ?_⟩, ?_, ?_, ?_, ?_, ?_, ?_, ?_, ?_, ?_⟩
      · intro j hj
        rw [below_iff hs, f1]
        exact belowl j hj
      · intro v
        rw [f3']
        exact logl v
      · rw [f3']
        exact v0 _ (by simp)
      · intro v hv
        rw [f2] at hv
        rw [bl]
        rcases hneed v hy' hv with hv | ⟨ne, hv⟩ | ⟨rfl, hv⟩
        · exact .inr ⟨by omega, v, hv, rfl⟩
        · exact .inl ⟨h.need v hv, fun e => ne e.2⟩
        · rw [hi] at hv; cases hv
      · rw [f1]; exact hgrow
      · intro e he
        rw [f3']
        simp [he]
      · intro j hj; omega
      · intro j hj v hv; exact higherl j v hj hv
      · intro v _ hv
        rcases zerol v hv with hv | hv
        · exact .inl hv.2
        · exact .inr hv
      · intro v hvw hv
        rw [d1] at hvw
        rcases zerol v hv with hv | hv
        · exact absurd hvw hv.1
        · exact .inr hv
      · intro j hj v hv; exact keepl j v (fun e => by omega) hv
      · intro v hvw j hv
        rw [d1] at hvw
        exact keepl j v (fun e => hvw e.2) hv
      · intro v hvw _
        rw [d1] at hvw
        subst hvw
        rw [f3']
        simp
    · rw [if_neg hi]
      simp only
      have bs : ∀ j v, B scale (note (setOnly scale t 0 w) (.keep w)) j v ↔ B scale t j v ∨ (j = 0 ∧ v = w) := by
        intro j v
        rw [B_note, B_setOnly, d1, d1]
      have ups : ∀ j v, up scale n j t v → up scale n j (note (setOnly scale t 0 w) (.keep w)) v := by
        intro j v hu i hi hn
        rw [bs]
        exact .inl (hu i hi hn)
      have f4 : (note (setOnly scale t 0 w) (.keep w)).log = ((s.log ++ [.visit w]) ++ l.map .set) ++ [.keep w] := by
        rw [← f3']; rfl
      refine ⟨⟨?_, ?_, ?_, ?_⟩, ?_, ?_, ?_, ?_, ?_, ?_, ?_, ?_, ?_⟩
      · intro j hj
        rw [below_iff hs]
        show ∀ v, _ → _ < t.position
        rw [f1]
        intro v hv
        rw [bs] at hv
        rcases hv with hv | ⟨rfl, rfl⟩
        · exact belowl j hj v hv
        · rw [d1, h1]; omega
      · intro v
        rw [f4, replay_append]
        simp only [replay]
        rw [← logl, bs]
        constructor
        · rintro (hv | ⟨_, rfl⟩)
          · exact .inr hv
          · exact .inl rfl
        · rintro (rfl | hv)
          · exact .inr ⟨rfl, rfl⟩
          · exact .inl hv
      · rw [f4, List.append_assoc]
        exact v0 _ (by simp)
      · intro v hv
        rw [bs]
        have hv : need t.world v := hv
        rw [f2] at hv
        rcases hneed v hy' hv with hv | ⟨ne, hv⟩ | ⟨rfl, hv⟩
        · exact .inl ((bl 0 v).2 (.inr ⟨by omega, v, hv, rfl⟩))
        · exact .inl ((bl 0 v).2 (.inl ⟨h.need v hv, fun e => ne e.2⟩))
        · exact .inr ⟨rfl, rfl⟩
      · show s.position ≤ t.position
        rw [f1]; exact hgrow
      · intro e he
        rw [f4]
        simp [he]
      · intro j hj; omega
      · intro j hj v hv
        rw [bs] at hv
        rcases hv with hv | ⟨e, _⟩
        · rcases higherl j v hj hv with hv | hv
          · exact .inl hv
          · exact .inr (ups j v hv)
        · omega
      · intro v hvw hv
        rw [d1] at hvw
        rw [bs] at hv
        rcases hv with hv | ⟨_, e⟩
        · rcases zerol v hv with hv | hv
          · exact .inl hv.2
          · exact .inr (ups 0 v hv)
        · exact absurd e hvw
      · intro v _ _; exact .inl rfl
      · intro j hj v hv; rw [bs]; exact .inl (keepl j v (fun e => by omega) hv)
      · intro v hvw j hv
        rw [d1] at hvw
        rw [bs]
        exact .inl (keepl j v (fun e => hvw e.2) hv)
      · intro v hvw _
        rw [d1] at hvw
        subst hvw
        rw [f4]
        simp

/-! ### The loop over the records -/

theorem up_mono {n k : Nat} {s t : St W} {w : Nat} (h : ∀ j, k < j → ∀ w, B scale s j w → B scale t j w) (hu : up scale n k s w) :
    up scale n k t w := fun j hj hn => h j hj w (hu j hj hn)

theorem loop_ok (hs : Scales scale) {need : W → Nat → Prop} {m0 : Nat → Prop} {n k : Nat} (body : St W → Nat → St W × Bool)
    (hb : ∀ s, J scale n need m0 s → H scale k s → ∀ r, bitAt (s.data k) r = true →
      BodyPost scale n need m0 k r s (body s (r * scale k)).1 (body s (r * scale k)).2) :
    ∀ (fuel : Nat) (it : Iter) (s : St W) (dirty : Bool), it.limit - it.index ≤ fuel → J scale n need m0 s → H scale k s →
      J scale n need m0 (loop scale k body fuel it s dirty).1 ∧
      s.position ≤ (loop scale k body fuel it s dirty).1.position ∧
      s.log ⊆ (loop scale k body fuel it s dirty).1.log ∧
      H scale k (loop scale k body fuel it s dirty).1 ∧
      (∀ j, k < j → ∀ w, B scale (loop scale k body fuel it s dirty).1 j w →
        B scale s j w ∨ up scale n j (loop scale k body fuel it s dirty).1 w) ∧
      (∀ w, ¬ (it.index ≤ w / scale k ∧ w / scale k < it.limit) → B scale (loop scale k body fuel it s dirty).1 k w →
        B scale s k w ∨ up scale n k (loop scale k body fuel it s dirty).1 w) ∧
      (∀ w, it.index ≤ w / scale k ∧ w / scale k < it.limit → B scale (loop scale k body fuel it s dirty).1 k w →
        (loop scale k body fuel it s dirty).2 = true ∨ up scale n k (loop scale k body fuel it s dirty).1 w) ∧
      (∀ j, k < j → ∀ w, B scale s j w → B scale (loop scale k body fuel it s dirty).1 j w) ∧
      (∀ w, ¬ (it.index ≤ w / scale k ∧ w / scale k < it.limit) → ∀ j, B scale s j w →
        B scale (loop scale k body fuel it s dirty).1 j w) ∧
      (∀ w, it.index ≤ w / scale k ∧ w / scale k < it.limit → B scale s 0 w →
        Ev.visit w ∈ (loop scale k body fuel it s dirty).1.log) ∧
      (dirty = true → (loop scale k body fuel it s dirty).2 = true) := by
  intro fuel
  induction fuel with
  | zero =>
    intro it s dirty hf hj hh
    simp only [loop]
    refine ⟨hj, Nat.le_refl _, fun _ h => h, hh, fun _ _ _ h => .inl h, fun _ _ h => .inl h, fun w hw => by omega,
      fun _ _ _ h => h, fun _ _ _ h => h, fun w hw => by omega, fun h => h⟩
  | succ fuel ih =>
    intro it s dirty hf hj hh
    have hm := hasMore_spec (level scale s k) it
    have hzero : ∀ w, B scale s 0 w → B scale s k w := by
      intro w h0
      have : ∀ i, i ≤ k → B scale s i w := by
        intro i
        induction i with
        | zero => intro _; exact h0
        | succ i ihi => intro hi; exact hh i (by omega) w (ihi (by omega))
      exact this k (Nat.le_refl _)
    unfold loop
    cases e : hasMore (level scale s k) it with
    | mk b it' =>
      rw [e] at hm
      cases b with
      | false =>
        simp only at hm ⊢
        obtain ⟨_, _, hno⟩ := hm
        refine ⟨hj, Nat.le_refl _, fun _ h => h, hh, fun _ _ _ h => .inl h, fun _ _ h => .inl h, fun w hw hbw => ?_,
          fun _ _ _ h => h, fun _ _ _ h => h, fun w hw hbw => ?_, fun h => h⟩
        · have := hno _ hw.1 hw.2
          unfold B at hbw
          rw [show (level scale s k).data = s.data k from rfl] at this
          rw [this] at hbw
          cases hbw
        · have := hno _ hw.1 hw.2
          have hbw := hzero w hbw
          unfold B at hbw
          rw [show (level scale s k).data = s.data k from rfl] at this
          rw [this] at hbw
          cases hbw
      | true =>
        simp only at hm ⊢
        obtain ⟨m1, m2, m3, m4, m5⟩ := hm
        have m4 : bitAt (s.data k) it'.index = true := m4
        have m5 : ∀ i, it.index ≤ i → i < it'.index → bitAt (s.data k) i = false := m5
        simp only [next]
        have hstart : it'.index * (level scale s k).scale = it'.index * scale k := rfl
        rw [hstart]
        have P := hb s hj hh it'.index m4
        generalize body s (it'.index * scale k) = r at P ⊢
        obtain ⟨s1, d1⟩ := r
        simp only at P ⊢
        have hf' : it'.limit - (it'.index + 1) ≤ fuel := by rw [m1]; omega
        obtain ⟨q1, q2, q3, q4, q5, q6, q7, q8, q9, q10, q11⟩ :=
          ih { it' with index := it'.index + 1 } s1 (dirty || d1) hf' P.inv P.hier
        simp only at q5 q6 q7 q8 q9 q10 q11
        generalize loop scale k body fuel { it' with index := it'.index + 1 } s1 (dirty || d1) = R at *
        obtain ⟨s2, d2⟩ := R
        simp only at *
        rw [m1] at q6 q7 q9 q10
        refine ⟨q1, Nat.le_trans P.pos q2, fun x hx => q3 (P.log hx), q4, ?_, ?_, ?_, ?_, ?_, ?_, ?_⟩
        · intro j hjk w hw
          rcases q5 j hjk w hw with hw | hw
          · rcases P.higher j hjk w hw with hw | hw
            · exact .inl hw
            · exact .inr (up_mono (fun i hi => q8 i (by omega)) hw)
          · exact .inr hw
        · intro w hw hbw
          rcases q6 w (by omega) hbw with hbw | hbw
          · rcases P.other w (by omega) hbw with hbw | hbw
            · exact .inl hbw
            · exact .inr (up_mono q8 hbw)
          · exact .inr hbw
        · intro w hw hbw
          by_cases hge : it'.index + 1 ≤ w / scale k
          · exact q7 w ⟨hge, hw.2⟩ hbw
          · rcases q6 w (by omega) hbw with hbw | hbw
            · by_cases heq : w / scale k = it'.index
              · rcases P.own w heq hbw with hd | hbw
                · left
                  apply q11
                  rw [hd]
                  simp
                · exact .inr (up_mono q8 hbw)
              · rcases P.other w heq hbw with hbw | hbw
                · have := m5 _ hw.1 (by omega)
                  unfold B at hbw
                  rw [this] at hbw
                  cases hbw
                · exact .inr (up_mono q8 hbw)
            · exact .inr hbw
        · intro j hjk w hw
          exact q8 j hjk w (P.keepHigher j hjk w hw)
        · intro w hw j hbw
          exact q9 w (by omega) j (P.keepOther w (by omega) j hbw)
        · intro w hw hbw
          by_cases heq : w / scale k = it'.index
          · exact q3 (P.visits w heq hbw)
          · by_cases hge : it'.index + 1 ≤ w / scale k
            · exact q10 w ⟨hge, hw.2⟩ (P.keepOther w heq 0 hbw)
            · have hbk := hzero w hbw
              have := m5 _ hw.1 (by omega)
              unfold B at hbk
              rw [this] at hbk
              cases hbk
        · intro hd
          apply q11
          rw [hd]
          rfl

theorem range_ok (hs : Scales scale) (s : St W) (k a b w : Nat) (ha : scale k ∣ a) (hab : a ≤ b) (hp : a ≤ s.position) :
    (((level scale s k).iterInit s.position a b).index ≤ w / scale k ∧ w / scale k < ((level scale s k).iterInit s.position a b).limit) ↔
      In scale k a b w ∧ w / scale k * scale k < s.position := by
  have e : (level scale s k).iterInit s.position a b = (level scale s k).iterInit s.position a (if b > s.position then s.position else b) := by
    unfold SegMap.iterInit
    simp only
    have : (if (if b > s.position then s.position else b) > s.position then s.position else if b > s.position then s.position else b) =
        if b > s.position then s.position else b := by
      split
      · rw [if_neg (by omega)]
      · rfl
    rw [this]
  rw [e, iterInit_covers (level scale s k) rfl (hs.pos k) s.position a _ ha (by split <;> omega) (by split <;> omega)]
  unfold In
  obtain ⟨q, rfl⟩ := ha
  show (∃ v, _ ∧ _ ∧ v / scale k = w / scale k) ↔ _
  constructor
  · rintro ⟨v, h1, h2, h3⟩
    have l1 : v / scale k * scale k ≤ v := Nat.div_mul_le_self _ _
    have l2 : scale k * q ≤ w / scale k * scale k := by
      rw [← h3, Nat.mul_comm]
      apply Nat.mul_le_mul_right
      exact (Nat.le_div_iff_mul_le (hs.pos k)).2 (by rw [Nat.mul_comm]; exact h1)
    rw [h3] at l1
    split at h2 <;> exact ⟨⟨l2, by omega⟩, by omega⟩
  · rintro ⟨⟨h1, h2⟩, h3⟩
    exact ⟨w / scale k * scale k, h1, by split <;> omega, Nat.mul_div_cancel _ (hs.pos k)⟩

theorem post_of_loop (hs : Scales scale) {need : W → Nat → Prop} {m0 : Nat → Prop} {n k : Nat} (hk : k ≤ n)
    (body : St W → Nat → St W × Bool)
    (hb : ∀ s, J scale n need m0 s → H scale k s → ∀ r, bitAt (s.data k) r = true →
      BodyPost scale n need m0 k r s (body s (r * scale k)).1 (body s (r * scale k)).2)
    (s : St W) (h : J scale n need m0 s) (hh : H scale k s) (a b : Nat) (ha : scale k ∣ a) (hab : a ≤ b) (hp : a ≤ s.position)
    (it : Iter) (hit : it = (level scale s k).iterInit s.position a b) :
    Post scale n need m0 k a b s (loop scale k body (it.limit - it.index) it s false).1
      (loop scale k body (it.limit - it.index) it s false).2 := by
  obtain ⟨q1, q2, q3, q4, q5, q6, q7, q8, q9, q10, q11⟩ := loop_ok hs body hb (it.limit - it.index) it s false (Nat.le_refl _) h hh
  have hr : ∀ w, (it.index ≤ w / scale k ∧ w / scale k < it.limit) ↔ In scale k a b w ∧ w / scale k * scale k < s.position := by
    intro w
    rw [hit]
    exact range_ok hs s k a b w ha hab hp
  have hzero : ∀ w, B scale s 0 w → B scale s k w := by
    intro w h0
    have : ∀ i, i ≤ k → B scale s i w := by
      intro i
      induction i with
      | zero => intro _; exact h0
      | succ i ihi => intro hi; exact hh i (by omega) w (ihi (by omega))
    exact this k (Nat.le_refl _)
  generalize loop scale k body (it.limit - it.index) it s false = R at *
  obtain ⟨s', d⟩ := R
  simp only at *
  refine ⟨q1, q2, q3, q4, q5, ?_, ?_, q8, ?_, ?_⟩
  · intro w hw hbw
    exact q6 w (fun x => hw ((hr w).1 x).1) hbw
  · intro w hw hbw
    by_cases x : it.index ≤ w / scale k ∧ w / scale k < it.limit
    · exact q7 w x hbw
    · rcases q6 w x hbw with hbw | hbw
      · exact absurd ((hr w).2 ⟨hw, below_of_B h hk hbw⟩) x
      · exact .inr hbw
  · intro w hw j hbw
    exact q9 w (fun x => hw ((hr w).1 x).1) j hbw
  · intro w hw hbw
    exact q10 w ((hr w).2 ⟨hw, below_of_B h hk (hzero w hbw)⟩) hbw

/-! ### A record of a higher level -/

theorem node_ok (hs : Scales scale) {need : W → Nat → Prop} {m0 : Nat → Prop} {n k : Nat} (hk : k + 1 ≤ n)
    (child : St W → Nat → Nat → St W × Bool)
    (hc : ∀ s, J scale n need m0 s → H scale k s → ∀ a b, scale k ∣ a → a ≤ b → a ≤ s.position →
      Post scale n need m0 k a b s (child s a b).1 (child s a b).2)
    (s : St W) (h : J scale n need m0 s) (hh : H scale (k + 1) s) (r : Nat) (hr : bitAt (s.data (k + 1)) r = true) :
    BodyPost scale n need m0 (k + 1) r s (nodeBody scale k child s (r * scale (k + 1))).1
      (nodeBody scale k child s (r * scale (k + 1))).2 := by
  have hdiv : r * scale (k + 1) / scale (k + 1) = r := Nat.mul_div_cancel _ (hs.pos _)
  have hbelow : r * scale (k + 1) < s.position := h.below (k + 1) hk r hr
  have b0 : ∀ j w, B scale (clearOnly scale s (k + 1) (r * scale (k + 1))) j w ↔ B scale s j w ∧ ¬ (j = k + 1 ∧ w / scale (k + 1) = r) := by
    intro j w
    rw [B_clearOnly, hdiv]
  have J0 : J scale n need m0 (clearOnly scale s (k + 1) (r * scale (k + 1))) := by
    refine J_up hs h rfl rfl rfl ?_ ?_
    · intro w
      rw [b0]
      exact ⟨fun x => x.1, fun x => ⟨x, fun e => by omega⟩⟩
    · intro j hj w hw
      exact below_of_B h hj ((b0 j w).1 hw).1
  have H0 : H scale k (clearOnly scale s (k + 1) (r * scale (k + 1))) := by
    intro j hj w hw
    rw [b0] at hw ⊢
    exact ⟨hh j (by omega) w hw.1, fun e => by omega⟩
  have P := hc _ J0 H0 (r * scale (k + 1)) (r * scale (k + 1) + scale (k + 1))
    (Nat.dvd_trans (hs.dvd k) (Nat.dvd_mul_left _ _)) (by omega) (Nat.le_of_lt hbelow)
  have hin : ∀ w, In scale k (r * scale (k + 1)) (r * scale (k + 1) + scale (k + 1)) w ↔ w / scale (k + 1) = r := by
    intro w
    unfold In
    obtain ⟨q, hq⟩ := hs.dvd k
    have hkp := hs.pos k
    have e1 : w / scale (k + 1) = w / scale k / q := by rw [hq, Nat.div_div_eq_div_mul]
    have hqp : 0 < q := by
      have := hs.pos (k + 1)
      rw [hq] at this
      exact Nat.pos_of_mul_pos_left this
    have e2 : r * scale (k + 1) = r * q * scale k := by rw [hq, Nat.mul_comm (scale k) q, Nat.mul_assoc]
    have e3 : r * scale (k + 1) + scale (k + 1) = (r * q + q) * scale k := by
      rw [e2, hq, Nat.add_mul, Nat.mul_comm (scale k) q]
    rw [e3, e2, e1, Nat.mul_le_mul_right_iff hkp, Nat.mul_lt_mul_right hkp, Nat.div_eq_iff hqp]
    constructor
    · rintro ⟨h1, h2⟩; omega
    · rintro ⟨h1, h2⟩; omega
  unfold nodeBody
  simp only
  generalize child (clearOnly scale s (k + 1) (r * scale (k + 1))) (r * scale (k + 1)) (r * scale (k + 1) + scale (k + 1)) = R at P ⊢
  obtain ⟨s1, d⟩ := R
  simp only at P ⊢
  have hposn : s.position ≤ s1.position := P.pos
  -- the levels up to k + 1 after the record was taken up
  have key : ∀ w, B scale s1 k w → (w / scale (k + 1) = r ∧ d = true) ∨ B scale s1 (k + 1) w := by
    intro w hw
    by_cases e : w / scale (k + 1) = r
    · rcases P.own w ((hin w).2 e) hw with hd | hu
      · exact .inl ⟨e, hd⟩
      · exact .inr (hu (k + 1) (by omega) hk)
    · rcases P.other w (fun x => e ((hin w).1 x)) hw with hw | hu
      · right
        rw [b0] at hw
        exact P.keepHigher (k + 1) (by omega) w ((b0 _ w).2 ⟨hh k (by omega) w hw.1, fun x => e x.2⟩)
      · exact .inr (hu (k + 1) (by omega) hk)
  cases d with
  | true =>
    rw [if_pos rfl]
    simp only
    have b2 : ∀ j w, B scale (setOnly scale s1 (k + 1) (r * scale (k + 1))) j w ↔ B scale s1 j w ∨ (j = k + 1 ∧ w / scale (k + 1) = r) := by
      intro j w
      rw [B_setOnly, hdiv]
    have upm : ∀ j w, up scale n j s1 w → up scale n j (setOnly scale s1 (k + 1) (r * scale (k + 1))) w := by
      intro j w hu i hi hn
      rw [b2]
      exact .inl (hu i hi hn)
    refine ⟨?_, hposn, P.log, ?_, ?_, ?_, ?_, ?_, ?_, ?_⟩
    · refine J_up hs P.inv rfl rfl rfl ?_ ?_
      · intro w
        rw [b2]
        constructor
        · rintro (x | x)
          · exact x
          · omega
        · exact .inl
      · intro j hj w hw
        rw [b2] at hw
        rcases hw with hw | ⟨rfl, e⟩
        · exact below_of_B P.inv hj hw
        · rw [e]; omega
    · intro j hj w hw
      rw [b2] at hw ⊢
      rcases hw with hw | ⟨e, _⟩
      · by_cases hjk : j = k
        · subst hjk
          rcases key w hw with ⟨e, _⟩ | x
          · exact .inr ⟨rfl, e⟩
          · exact .inl x
        · exact .inl (P.hier j (by omega) w hw)
      · omega
    · intro j hj w hw
      rw [b2] at hw
      rcases hw with hw | ⟨e, _⟩
      · rcases P.higher j (by omega) w hw with hw | hw
        · exact .inl ((b0 j w).1 hw).1
        · exact .inr (upm j w hw)
      · omega
    · intro w hw hbw
      rw [b2] at hbw
      rcases hbw with hbw | ⟨_, e⟩
      · rcases P.higher (k + 1) (by omega) w hbw with hbw | hbw
        · exact .inl ((b0 _ w).1 hbw).1
        · exact .inr (upm _ w hbw)
      · exact absurd e hw
    · intro _ _ _; exact .inl rfl
    · intro j hj w hw
      rw [b2]
      exact .inl (P.keepHigher j (by omega) w ((b0 j w).2 ⟨hw, fun e => by omega⟩))
    · intro w hw j hbw
      rw [b2]
      exact .inl (P.keepOther w (fun x => hw ((hin w).1 x)) j ((b0 j w).2 ⟨hbw, fun e => hw e.2⟩))
    · intro w hw hbw
      exact P.visits w ((hin w).2 hw) ((b0 0 w).2 ⟨hbw, fun e => by omega⟩)
  | false =>
    rw [if_neg (by simp)]
    simp only
    refine ⟨P.inv, hposn, P.log, ?_, ?_, ?_, ?_, ?_, ?_, ?_⟩
    · intro j hj w hw
      by_cases hjk : j = k
      · subst hjk
        rcases key w hw with ⟨_, e⟩ | x
        · cases e
        · exact x
      · exact P.hier j (by omega) w hw
    · intro j hj w hw
      rcases P.higher j (by omega) w hw with hw | hw
      · exact .inl ((b0 j w).1 hw).1
      · exact .inr hw
    · intro w hw hbw
      rcases P.higher (k + 1) (by omega) w hbw with hbw | hbw
      · exact .inl ((b0 _ w).1 hbw).1
      · exact .inr hbw
    · intro w hw hbw
      rcases P.higher (k + 1) (by omega) w hbw with hbw | hbw
      · exact absurd ⟨rfl, hw⟩ ((b0 _ w).1 hbw).2
      · exact .inr hbw
    · intro j hj w hw
      exact P.keepHigher j (by omega) w ((b0 j w).2 ⟨hw, fun e => by omega⟩)
    · intro w hw j hbw
      exact P.keepOther w (fun x => hw ((hin w).1 x)) j ((b0 j w).2 ⟨hbw, fun e => hw e.2⟩)
    · intro w hw hbw
      exact P.visits w ((hin w).2 hw) ((b0 0 w).2 ⟨hbw, fun e => by omega⟩)

theorem collect_ok (hs : Scales scale) (c : Client W) {need : W → Nat → Prop} (hc : Sound c need) {m0 : Nat → Prop} (n : Nat) :
    ∀ k, k ≤ n → ∀ s, J scale n need m0 s → H scale k s → ∀ a b, scale k ∣ a → a ≤ b → a ≤ s.position →
      Post scale n need m0 k a b s (collect scale c n k s a b).1 (collect scale c n k s a b).2 := by
  intro k
  induction k with
  | zero =>
    intro hk s h hh a b ha hab hp
    unfold collect
    simp only
    apply post_of_loop hs hk _ _ s h hh a b ha hab hp _ rfl
    intro s h _ r hr
    rw [hs.one, Nat.mul_one]
    exact leaf_ok hs c hc n s h r (by unfold B; rw [hs.one, Nat.div_one]; exact hr)
  | succ k ih =>
    intro hk s h hh a b ha hab hp
    unfold collect
    simp only
    apply post_of_loop hs hk _ _ s h hh a b ha hab hp _ rfl
    intro s h hh r hr
    exact node_ok hs hk _ (ih (by omega)) s h hh r hr

/-- C78: in a minor collection every remembered word is visited; afterwards every word that has to be is marked, on all levels,
    so that the next collection finds it; only marked words are visited, and the marks are those that remain of what was marked,
    cleared and set. -/
theorem collectGen2_ok (hs : Scales scale) (c : Client W) {need : W → Nat → Prop} (hc : Sound c need) (n : Nat) (s : St W)
    (hl : s.log = []) (hbelow : ∀ j, j ≤ n → ∀ r, bitAt (s.data j) r = true → r * scale j < s.position) (hh : H scale n s)
    (hneed : ∀ w, need s.world w → B scale s 0 w) :
    let s' := collectGen2 scale c n s
    (∀ w, B scale s 0 w → Ev.visit w ∈ s'.log) ∧
    (∀ w, need s'.world w → ∀ k, k ≤ n → B scale s' k w) ∧
    (∀ a b w, s'.log = a ++ .visit w :: b → replay a (B scale s 0) w) ∧
    (∀ w, B scale s' 0 w ↔ replay s'.log (B scale s 0) w) ∧
    H scale n s' ∧ s.position ≤ s'.position ∧
    (∀ j, j ≤ n → ∀ r, bitAt (s'.data j) r = true → r * scale j < s'.position) := by
  have h : J scale n need (B scale s 0) s := by
    refine ⟨hbelow, ?_, ?_, hneed⟩
    · intro w; rw [hl]; rfl
    · intro a b w e; rw [hl] at e; simp at e
  have hzero : ∀ (t : St W), H scale n t → ∀ w, B scale t 0 w → ∀ k, k ≤ n → B scale t k w := by
    intro t ht w h0 i
    induction i with
    | zero => intro _; exact h0
    | succ i ihi => intro hi; exact ht i (by omega) w (ihi (by omega))
  simp only
  unfold collectGen2
  by_cases hp : s.position ≠ 0
  · rw [if_pos hp]
    have P := collect_ok hs c hc n n (Nat.le_refl _) s h hh 0 s.position (Nat.dvd_zero _) (by omega) (by omega)
    generalize collect scale c n n s 0 s.position = R at *
    obtain ⟨s', d⟩ := R
    simp only at *
    refine ⟨?_, ?_, P.inv.visited, P.inv.log, P.hier, P.pos, P.inv.below⟩
    · intro w hw
      refine P.visits w ⟨by omega, ?_⟩ hw
      exact below_of_B h (Nat.le_refl _) (hzero s hh w hw n (Nat.le_refl _))
    · intro w hw
      exact hzero s' P.hier w (P.inv.need w hw)
  · rw [if_neg hp]
    refine ⟨?_, ?_, h.visited, h.log, hh, Nat.le_refl _, hbelow⟩
    · intro w hw
      have := below_of_B h (Nat.zero_le n) hw
      omega
    · intro w hw
      exact hzero s hh w (hneed w hw)

/-! ### The write barrier -/

/-- `set` marks the word on every level and nothing else but the records the word lies in. -/
theorem mark_ok (hs : Scales scale) (n : Nat) (s : St W) (w : Nat) (hw : w < s.position) (hh : H scale n s)
    (hbelow : ∀ j, j ≤ n → ∀ r, bitAt (s.data j) r = true → r * scale j < s.position) :
    (∀ k, k ≤ n → B scale (mark scale n s w) k w) ∧
    (∀ v, B scale (mark scale n s w) 0 v ↔ v = w ∨ B scale s 0 v) ∧
    H scale n (mark scale n s w) ∧
    (∀ j, j ≤ n → ∀ r, bitAt ((mark scale n s w).data j) r = true → r * scale j < (mark scale n s w).position) := by
  refine ⟨fun k hk => (B_mark n s w k w).2 (.inr ⟨hk, rfl⟩), ?_, ?_, ?_⟩
  · intro v
    rw [B_mark, hs.one, Nat.div_one, Nat.div_one]
    constructor
    · rintro (h | ⟨_, h⟩)
      · exact .inr h
      · exact .inl h
    · rintro (h | h)
      · exact .inr ⟨by omega, h⟩
      · exact .inl h
  · intro j hj v hv
    rw [B_mark] at hv ⊢
    rcases hv with hv | ⟨_, hv⟩
    · exact .inl (hh j hj v hv)
    · exact .inr ⟨by omega, rec_up hs (by omega) hv⟩
  · intro j hj
    rw [below_iff hs, (mark_frame n s w).1]
    intro v hv
    rw [B_mark] at hv
    rcases hv with hv | ⟨_, hv⟩
    · exact hbelow j hj _ hv
    · rw [hv]
      have := Nat.div_mul_le_self w (scale j)
      omega

/-- The bits of all levels for a word are those `set` marks. -/
theorem atomicBits_ok (w : Nat) : ∀ n k i, (k, i) ∈ atomicBits scale w n ↔ k ≤ n ∧ i = w / scale k := by
  intro n
  induction n with
  | zero =>
    intro k i
    simp only [atomicBits, List.mem_cons, List.not_mem_nil, or_false, Prod.mk.injEq]
    constructor
    · rintro ⟨rfl, rfl⟩; exact ⟨Nat.le_refl _, rfl⟩
    · rintro ⟨h, rfl⟩
      obtain rfl : k = 0 := by omega
      exact ⟨rfl, rfl⟩
  | succ n ih =>
    intro k i
    simp only [atomicBits, List.mem_cons, Prod.mk.injEq]
    rw [ih]
    constructor
    · rintro (⟨rfl, rfl⟩ | ⟨h, rfl⟩)
      · exact ⟨Nat.le_refl _, rfl⟩
      · exact ⟨by omega, rfl⟩
    · rintro ⟨h, rfl⟩
      by_cases e : k = n + 1
      · subst e; exact .inl ⟨rfl, rfl⟩
      · exact .inr ⟨by omega, rfl⟩

/-- Any number of steps. -/
inductive Steps : Conc → Conc → Prop where
  | refl (c : Conc) : Steps c c
  | step {a b c : Conc} : Steps a b → Step b c → Steps a c

/-- The invariant of the threads: whatever was marked is marked, whatever a thread has to mark is marked or still to do, and
    nothing else is marked. -/
structure Marked (c0 c : Conc) : Prop where
  kept : ∀ k i, bitAt (c0.data k) i = true → bitAt (c.data k) i = true
  done : ∀ t k i, (k, i) ∈ (c0.threads t).todo → (k, i) ∈ (c.threads t).todo ∨ bitAt (c.data k) i = true
  only : ∀ k i, bitAt (c.data k) i = true → bitAt (c0.data k) i = true ∨ ∃ t, (k, i) ∈ (c0.threads t).todo
  subset : ∀ t, (c.threads t).todo ⊆ (c0.threads t).todo

theorem step_bits {a b : Conc} (h : Step a b) : (∀ k i, bitAt (a.data k) i = true → bitAt (b.data k) i = true) ∧
    (∀ t p, p ∈ (a.threads t).todo → p ∈ (b.threads t).todo ∨ bitAt (b.data p.1) p.2 = true) ∧
    (∀ k i, bitAt (b.data k) i = true → bitAt (a.data k) i = true ∨ ∃ t, (k, i) ∈ (a.threads t).todo) ∧
    (∀ t, (b.threads t).todo ⊆ (a.threads t).todo) := by
  cases h with
  | read t k i l e1 e2 =>
    refine ⟨fun _ _ h => h, fun u p hp => .inl ?_, fun _ _ h => .inl h, fun u p hp => ?_⟩
    · simp only
      by_cases hu : u = t
      · subst hu; rw [if_pos rfl]; rw [e1] at hp; exact hp
      · rw [if_neg hu]; exact hp
    · simp only at hp
      by_cases hu : u = t
      · subst hu; rw [if_pos rfl] at hp; rw [e1]; exact hp
      · rw [if_neg hu] at hp; exact hp
  | swap t k i l old e1 e2 e3 =>
    have hm : store (a.data k) (wordOf i) (old ||| (1#64 <<< bitOf i)) = markBit (a.data k) i := by
      unfold markBit; rw [e3]
    have hbit : ∀ k' j, bitAt ((if k' = k then store (a.data k) (wordOf i) (old ||| (1#64 <<< bitOf i)) else a.data k')) j = true ↔
        bitAt (a.data k') j = true ∨ (k' = k ∧ j = i) := by
      intro k' j
      by_cases hk : k' = k
      · subst hk
        rw [if_pos rfl, hm, bitAt_markBit]
        simp only [Bool.or_eq_true, decide_eq_true_eq, true_and]
        exact Or.comm
      · rw [if_neg hk]
        simp [hk]
    refine ⟨?_, ?_, ?_, ?_⟩
    · intro k' j h
      exact (hbit k' j).2 (.inl h)
    · intro u p hp
      by_cases hu : u = t
      · subst hu
        rw [e1] at hp
        simp only [if_pos]
        rcases List.mem_cons.1 hp with rfl | hp
        · exact .inr ((hbit _ _).2 (.inr ⟨rfl, rfl⟩))
        · exact .inl hp
      · left
        simp only
        rw [if_neg hu]
        exact hp
    · intro k' j h
      rcases (hbit k' j).1 h with h | ⟨rfl, rfl⟩
      · exact .inl h
      · exact .inr ⟨t, by rw [e1]; simp⟩
    · intro u p hp
      simp only at hp
      by_cases hu : u = t
      · subst hu
        rw [if_pos rfl] at hp
        rw [e1]
        exact List.mem_cons_of_mem _ hp
      · rw [if_neg hu] at hp; exact hp
  | retry t k i l old e1 e2 e3 =>
    refine ⟨fun _ _ h => h, fun u p hp => .inl ?_, fun _ _ h => .inl h, fun u p hp => ?_⟩
    · simp only
      by_cases hu : u = t
      · subst hu; rw [if_pos rfl]; rw [e1] at hp; exact hp
      · rw [if_neg hu]; exact hp
    · simp only at hp
      by_cases hu : u = t
      · subst hu; rw [if_pos rfl] at hp; rw [e1]; exact hp
      · rw [if_neg hu] at hp; exact hp

theorem steps_marked {a b : Conc} (h : Steps a b) : Marked a b := by
  induction h with
  | refl => exact ⟨fun _ _ h => h, fun _ _ _ h => .inl h, fun _ _ h => .inl h, fun _ _ h => h⟩
  | step _ hs ih =>
    obtain ⟨s1, s2, s3, s4⟩ := step_bits hs
    refine ⟨fun k i h => s1 k i (ih.kept k i h), ?_, ?_, fun t p hp => ih.subset t (s4 t hp)⟩
    · intro t k i h
      rcases ih.done t k i h with h | h
      · exact s2 t (k, i) h
      · exact .inr (s1 k i h)
    · intro k i h
      rcases s3 k i h with h | ⟨t, h⟩
      · exact ih.only k i h
      · exact .inr ⟨t, ih.subset t h⟩

/-- C78: threads that mark words at the same time lose no mark, whatever the order of their steps: once they are done, exactly
    the records of the marked words have been added on all levels. -/
theorem concurrent_marks (n : Nat) (c0 c : Conc) (words : Nat → Option Nat)
    (h0 : ∀ t, c0.threads t = ⟨match words t with | none => [] | some w => atomicBits scale w n, none⟩)
    (h : Steps c0 c) (hd : ∀ t, (c.threads t).todo = []) (k i : Nat) :
    bitAt (c.data k) i = true ↔ bitAt (c0.data k) i = true ∨ ∃ t w, words t = some w ∧ k ≤ n ∧ i = w / scale k := by
  have M := steps_marked h
  constructor
  · intro hb
    rcases M.only k i hb with hb | ⟨t, hb⟩
    · exact .inl hb
    · right
      rw [h0] at hb
      cases e : words t with
      | none => rw [e] at hb; simp at hb
      | some w =>
        rw [e] at hb
        exact ⟨t, w, e, (atomicBits_ok w n k i).1 hb⟩
  · rintro (hb | ⟨t, w, e, hk, hi⟩)
    · exact M.kept k i hb
    · have hm : (k, i) ∈ (c0.threads t).todo := by
        rw [h0, e]
        exact (atomicBits_ok w n k i).2 ⟨hk, hi⟩
      rcases M.done t k i hm with hb | hb
      · rw [hd] at hb; simp at hb
      · exact hb

/-- Threads 0 and 1 mark words 7 and 9 at the same time: both read the machine word, thread 0 changes it, and the
    compare-and-swap of thread 1 fails once. -/
def raceStart : Conc := ⟨fun _ _ => 0#64, fun t => ⟨match (if t = 0 then some 7 else if t = 1 then some 9 else none : Option Nat) with
  | none => []
  | some w => atomicBits gen2Scale w 0, none⟩⟩

theorem race : ∃ c, Steps raceStart c ∧ ∀ t, (c.threads t).todo = [] := by
  refine ⟨_, .step (.step (.step (.step (.step (.step (.refl _)
    (.read _ 0 0 7 [] rfl rfl)) (.read _ 1 0 9 [] rfl rfl)) (.swap _ 0 0 7 [] 0#64 rfl rfl rfl))
    (.retry _ 1 0 9 [] 0#64 rfl rfl (by decide))) (.read _ 1 0 9 [] rfl rfl)) (.swap _ 1 0 9 [] _ rfl rfl rfl), ?_⟩
  intro t
  simp only [raceStart]
  by_cases h1 : t = 1
  · simp [h1]
  · by_cases h0 : t = 0
    · simp [h0]
    · simp [h1, h0]

example : ∃ c, Steps raceStart c ∧ bitAt (c.data 0) 7 = true ∧ bitAt (c.data 0) 9 = true ∧ bitAt (c.data 0) 8 = false := by
  obtain ⟨c, h, hd⟩ := race
  have R := concurrent_marks (scale := gen2Scale) 0 raceStart c (fun t => if t = 0 then some 7 else if t = 1 then some 9 else none)
    (fun _ => rfl) h hd 0
  refine ⟨c, h, (R 7).2 (.inr ⟨0, 7, rfl, Nat.le_refl _, rfl⟩), (R 9).2 (.inr ⟨1, 9, rfl, Nat.le_refl _, rfl⟩), ?_⟩
  cases e : bitAt (c.data 0) 8 with
  | false => rfl
  | true =>
    rcases (R 8).1 e with h | ⟨t, w, h, _, hi⟩
    · revert h; decide
    · by_cases h0 : t = 0
      · rw [if_pos h0] at h; cases h; revert hi; decide
      · rw [if_neg h0] at h
        by_cases h1 : t = 1
        · rw [if_pos h1] at h; cases h; revert hi; decide
        · rw [if_neg h1] at h; cases h

/-- A thread is never stuck: while it has something to do it can make a step, and if no other thread changes the word the next
    compare-and-swap succeeds. -/
theorem thread_moves (c : Conc) (t : Nat) (h : (c.threads t).todo ≠ []) : ∃ c', Step c c' := by
  cases e : (c.threads t).todo with
  | nil => exact absurd e h
  | cons p l =>
    obtain ⟨k, i⟩ := p
    cases o : (c.threads t).old with
    | none => exact ⟨_, .read c t k i l e o⟩
    | some old =>
      by_cases hw : c.data k (wordOf i) = old
      · exact ⟨_, .swap c t k i l old e o hw⟩
      · exact ⟨_, .retry c t k i l old e o hw⟩

/-! ### Layout -/

theorem size_mono (scale : Nat → Nat) (capacity k : Nat) : offset scale capacity k + calculateSize capacity (scale k) 1 =
    footprint scale capacity k := by
  cases k with
  | zero => simp [offset, footprint]
  | succ k => simp only [offset, footprint]; omega

theorem footprint_mono (scale : Nat → Nat) (capacity : Nat) {j k : Nat} (h : j ≤ k) : footprint scale capacity j ≤ footprint scale capacity k := by
  induction h with
  | refl => exact Nat.le_refl _
  | step _ ih => rw [footprint]; omega

/-- The data of the levels do not overlap and lie within the memory allocated for the segment; the bit of every word of the
    segment lies in the data of its level. -/
theorem layout_ok (hs : Scales scale) (capacity n : Nat) :
    (∀ j k, j < k → offset scale capacity j + calculateSize capacity (scale j) 1 ≤ offset scale capacity k) ∧
    (∀ k, k ≤ n → offset scale capacity k + calculateSize capacity (scale k) 1 ≤ footprint scale capacity n) ∧
    (∀ k w, w < capacity → wordOf (w / scale k) < calculateSize capacity (scale k) 1) := by
  refine ⟨?_, ?_, ?_⟩
  · intro j k hjk
    rw [size_mono]
    cases k with
    | zero => omega
    | succ k =>
      show _ ≤ footprint scale capacity k
      exact footprint_mono scale capacity (by omega)
  · intro k hk
    rw [size_mono]
    exact footprint_mono scale capacity hk
  · intro k w hw
    unfold calculateSize wordOf
    have hp := hs.pos k
    have h1 : w / scale k < (capacity + scale k - 1) / scale k := by
      rw [Nat.div_lt_iff_lt_mul hp]
      have := Nat.lt_div_mul_add hp (a := capacity + scale k - 1)
      omega
    omega

example : footprint gen2Scale 1000000 2 = 15657 ∧ offset gen2Scale 1000000 2 = 15656 := by decide

/-! ### Examples -/

/-- Where a word refers to. -/
inductive Place where
  | old
  /-- the young generation before the collection -/
  | fromSpace
  /-- likewise, an object that is to be moved to the old generation; it has one word -/
  | tenured
  /-- the young generation after the collection -/
  | nextGen
  deriving DecidableEq

/-- A collector: objects are moved, those that are to be tenured to the end of the old generation, where their word refers to the
    young generation and is marked. -/
def sample : Client (Nat → Place) where
  young := fun world w => world w == .nextGen
  visit := fun world p w =>
    match world w with
    | .fromSpace => (fun v => if v = w then .nextGen else world v, p, [])
    | .tenured => (fun v => if v = p then .nextGen else if v = w then .old else world v, p + 1, [p])
    | _ => (world, p, [])
  inside := fun world _ w => world w == .old

theorem sample_sound : Sound sample fun world w => world w ≠ .old := by
  refine ⟨?_, ?_, ?_⟩
  · intro world p w v _ h
    unfold sample at h ⊢
    simp only at h ⊢
    cases e : world w <;> rw [e] at h <;> simp only at h ⊢
    · right
      by_cases ev : v = w
      · subst ev; exact absurd e h
      · exact .inl ⟨ev, h⟩
    · right
      by_cases ev : v = w
      · right; subst ev; exact ⟨rfl, by simp⟩
      · left; rw [if_neg ev] at h; exact ⟨ev, h⟩
    · by_cases ep : v = p
      · left; simp [ep]
      · right
        rw [if_neg ep] at h
        by_cases ev : v = w
        · rw [if_pos ev] at h; exact absurd rfl h
        · rw [if_neg ev] at h; exact .inl ⟨ev, h⟩
    · right
      by_cases ev : v = w
      · right; subst ev; exact ⟨rfl, by rw [e]; rfl⟩
      · exact .inl ⟨ev, h⟩
  · intro world p w
    unfold sample
    simp only
    split <;> simp
  · intro world p w
    unfold sample
    simp only
    split <;> simp

/-- An old generation of 600000 words of which two refer to the young generation. -/
def sampleStart : St (Nat → Place) :=
  { mark gen2Scale 2 (mark gen2Scale 2 ⟨fun _ _ => 0#64, 600000,
      fun w => if w = 7 then .tenured else if w = 550000 then .fromSpace else .old, []⟩ 7) 550000 with log := [] }

/-- Both words are visited; afterwards word 550000 and the word of the moved object are marked on all levels. -/
example : let s' := collectGen2 gen2Scale sample 2 sampleStart
    Ev.visit 7 ∈ s'.log ∧ Ev.visit 550000 ∈ s'.log ∧ ∀ w, s'.world w ≠ .old → ∀ k, k ≤ 2 → B gen2Scale s' k w := by
  have m1 := mark_ok (W := Nat → Place) gen2_scales 2 ⟨fun _ _ => 0#64, 600000,
      fun w => if w = 7 then .tenured else if w = 550000 then .fromSpace else .old, []⟩ 7 (by decide)
    (by intro j _ w h; simp [B, bitAt] at h) (by intro j _ r h; simp [bitAt] at h)
  have m2 := mark_ok gen2_scales 2 _ 550000 (by rw [(mark_frame 2 _ 7).1]; decide) m1.2.2.1 m1.2.2.2
  have R := collectGen2_ok gen2_scales sample sample_sound 2 sampleStart rfl m2.2.2.2 m2.2.2.1 (by
    intro w hw
    have hw : (mark gen2Scale 2 (mark gen2Scale 2 (⟨fun _ _ => 0#64, 600000,
      fun w => if w = 7 then .tenured else if w = 550000 then .fromSpace else .old, []⟩ : St (Nat → Place)) 7) 550000).world w
      ≠ Place.old := hw
    rw [(mark_frame 2 _ 550000).2.1, (mark_frame 2 _ 7).2.1] at hw
    simp only at hw
    refine (m2.2.1 w).2 ?_
    by_cases e : w = 550000
    · exact .inl e
    · right
      refine (m1.2.1 w).2 ?_
      rw [if_neg e] at hw
      by_cases e7 : w = 7
      · exact .inl e7
      · rw [if_neg e7] at hw; exact absurd rfl hw)
  exact ⟨R.1 7 ((m2.2.1 7).2 (.inr ((m1.2.1 7).2 (.inl rfl)))), R.1 550000 ((m2.2.1 550000).2 (.inl rfl)), R.2.1⟩

end Avian.Remember
