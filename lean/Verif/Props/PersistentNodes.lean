import Verif.Lib.PersistentNodes
import Verif.Props.PersistentSet

namespace Avian.PersistentNodes

open Avian.PersistentSet (Exn T Frame mk plug1 plug PSet)

variable {α : Type}

/-! ### Trees in the store -/

/-- Node `i` is the root of the tree `t`; none of the nodes of `X` is in it. -/
def Tree (h : H α) (X : Nat → Prop) : Nat → T α → Prop
  | i, .leaf => i = 0
  | i, .node c l v r =>
    i ≠ 0 ∧ i < h.next ∧ ¬ X i ∧ (h.mem i).red = c ∧ (h.mem i).value = some v ∧
      Tree h X (h.mem i).left l ∧ Tree h X (h.mem i).right r

/-- The subtrees of node `x` avoid `X`, which may have `x` in it. -/
def Focus (h : H α) (X : Nat → Prop) : Nat → T α → Prop
  | x, .leaf => x = 0
  | x, .node c l v r =>
    x ≠ 0 ∧ x < h.next ∧ (h.mem x).red = c ∧ (h.mem x).value = some v ∧
      Tree h X (h.mem x).left l ∧ Tree h X (h.mem x).right r

/-- The nodes above `x`, and what is beside the path. -/
def Spine (h : H α) (X : Nat → Prop) : Nat → List Nat → List (Frame α) → Nat → Prop
  | x, [], [], root => root = x
  | x, a :: as, f :: fs, root =>
    a ≠ 0 ∧ a < h.next ∧ (h.mem a).red = f.red ∧ (h.mem a).value = some f.v ∧ (h.mem a).kid f.left = x ∧
      Tree h X ((h.mem a).kid (!f.left)) f.sib ∧ Spine h X a as fs root
  | _, _, _, _ => False

/-- Nothing but the nodes of `W` is changed. -/
structure Agree (W : Nat → Prop) (h h' : H α) : Prop where
  grow : h.next ≤ h'.next
  keep : ∀ i, i < h.next → ¬ W i → h'.mem i = h.mem i

theorem Agree.refl (W : Nat → Prop) (h : H α) : Agree W h h := ⟨Nat.le_refl _, fun _ _ _ => rfl⟩

theorem Agree.trans {W : Nat → Prop} {h h1 h2 : H α} (a : Agree W h h1) (b : Agree W h1 h2) : Agree W h h2 :=
  ⟨Nat.le_trans a.grow b.grow, fun i hi hw => (b.keep i (Nat.lt_of_lt_of_le hi a.grow) hw).trans (a.keep i hi hw)⟩

/-- The later changes may also be of nodes that were not there at first. -/
theorem Agree.trans_new {W W' : Nat → Prop} {h h1 h2 : H α} (a : Agree W h h1) (b : Agree W' h1 h2)
    (hw : ∀ i, W' i → W i ∨ h.next ≤ i) : Agree W h h2 :=
  ⟨Nat.le_trans a.grow b.grow, fun i hi hn =>
    (b.keep i (Nat.lt_of_lt_of_le hi a.grow) fun w => (hw i w).elim hn (fun q => by omega)).trans (a.keep i hi hn)⟩

theorem Agree.mono {W W' : Nat → Prop} {h h' : H α} (a : Agree W h h') (hw : ∀ i, W i → W' i ∨ h.next ≤ i) : Agree W' h h' :=
  ⟨a.grow, fun i hi hn => a.keep i hi fun w => (hw i w).elim hn (fun q => by omega)⟩

theorem Tree.mono {h : H α} {X Y : Nat → Prop} (hxy : ∀ i, Y i → X i) : ∀ {i : Nat} {t : T α}, Tree h X i t → Tree h Y i t := by
  intro i t
  induction t generalizing i with
  | leaf => exact fun h => h
  | node c l v r il ir =>
    rintro ⟨a, b, c, d, e, f, g⟩
    exact ⟨a, b, fun y => c (hxy i y), d, e, il f, ir g⟩

theorem Tree.agree {h h' : H α} {W X : Nat → Prop} (ag : Agree W h h') (hw : ∀ i, i < h.next → W i → X i) :
    ∀ {i : Nat} {t : T α}, Tree h X i t → Tree h' X i t := by
  intro i t
  induction t generalizing i with
  | leaf => exact fun h => h
  | node c l v r il ir =>
    rintro ⟨a, b, c, d, e, f, g⟩
    have k := ag.keep i b (fun w => c (hw i b w))
    refine ⟨a, Nat.lt_of_lt_of_le b ag.grow, c, ?_, ?_, ?_, ?_⟩
    · rw [k]; exact d
    · rw [k]; exact e
    · rw [k]; exact il f
    · rw [k]; exact ir g

theorem Spine.mono {h : H α} {X Y : Nat → Prop} (hxy : ∀ i, Y i → X i) :
    ∀ {as : List Nat} {fs : List (Frame α)} {x root : Nat}, Spine h X x as fs root → Spine h Y x as fs root := by
  intro as
  induction as with
  | nil =>
    intro fs x root s
    cases fs with
    | nil => exact s
    | cons f fs => exact s.elim
  | cons a as ih =>
    intro fs x root s
    cases fs with
    | nil => exact s.elim
    | cons f fs =>
      obtain ⟨a1, a2, a3, a4, a5, a6, a7⟩ := s
      exact ⟨a1, a2, a3, a4, a5, a6.mono hxy, ih a7⟩

theorem Spine.agree {h h' : H α} {W X : Nat → Prop} (ag : Agree W h h') (hw : ∀ i, i < h.next → W i → X i) :
    ∀ {as : List Nat} {fs : List (Frame α)} {x root : Nat}, (∀ a ∈ as, ¬ W a) → Spine h X x as fs root → Spine h' X x as fs root := by
  intro as
  induction as with
  | nil =>
    intro fs x root _ s
    cases fs with
    | nil => exact s
    | cons f fs => exact s.elim
  | cons a as ih =>
    intro fs x root hn s
    cases fs with
    | nil => exact s.elim
    | cons f fs =>
      obtain ⟨a1, a2, a3, a4, a5, a6, a7⟩ := s
      have k := ag.keep a a2 (hn a (by simp))
      refine ⟨a1, Nat.lt_of_lt_of_le a2 ag.grow, ?_, ?_, ?_, ?_, ih (fun b hb => hn b (by simp [hb])) a7⟩
      · rw [k]; exact a3
      · rw [k]; exact a4
      · rw [k]; exact a5
      · rw [k]; exact a6.agree ag hw

/-- Both at once; nodes that were not there before do not matter. -/
theorem Tree.keep {h h' : H α} {W X Y : Nat → Prop} (ag : Agree W h h') (hw : ∀ i, i < h.next → W i → X i)
    (hy : ∀ i, i < h.next → Y i → X i) : ∀ {i : Nat} {t : T α}, Tree h X i t → Tree h' Y i t := by
  intro i t
  induction t generalizing i with
  | leaf => exact fun h => h
  | node c l v r il ir =>
    rintro ⟨a, b, c, d, e, f, g⟩
    have k := ag.keep i b (fun w => c (hw i b w))
    refine ⟨a, Nat.lt_of_lt_of_le b ag.grow, fun q => c (hy i b q), ?_, ?_, ?_, ?_⟩
    · rw [k]; exact d
    · rw [k]; exact e
    · rw [k]; exact il f
    · rw [k]; exact ir g

theorem Spine.keep {h h' : H α} {W X Y : Nat → Prop} (ag : Agree W h h') (hw : ∀ i, i < h.next → W i → X i)
    (hy : ∀ i, i < h.next → Y i → X i) :
    ∀ {as : List Nat} {fs : List (Frame α)} {x root : Nat}, (∀ a ∈ as, ¬ W a) → Spine h X x as fs root → Spine h' Y x as fs root := by
  intro as
  induction as with
  | nil =>
    intro fs x root _ s
    cases fs with
    | nil => exact s
    | cons f fs => exact s.elim
  | cons a as ih =>
    intro fs x root hn s
    cases fs with
    | nil => exact s.elim
    | cons f fs =>
      obtain ⟨a1, a2, a3, a4, a5, a6, a7⟩ := s
      have k := ag.keep a a2 (hn a (by simp))
      refine ⟨a1, Nat.lt_of_lt_of_le a2 ag.grow, ?_, ?_, ?_, ?_, ih (fun b hb => hn b (by simp [hb])) a7⟩
      · rw [k]; exact a3
      · rw [k]; exact a4
      · rw [k]; exact a5
      · rw [k]; exact a6.keep ag hw hy

theorem Focus.agree {h h' : H α} {W X : Nat → Prop} (ag : Agree W h h') (hw : ∀ i, i < h.next → W i → X i) {x : Nat} {t : T α}
    (hx : ¬ W x) (f : Focus h X x t) : Focus h' X x t := by
  cases t with
  | leaf => exact f
  | node c l v r =>
    obtain ⟨a, b, c, d, e, g⟩ := f
    have k := ag.keep x b hx
    refine ⟨a, Nat.lt_of_lt_of_le b ag.grow, ?_, ?_, ?_, ?_⟩
    · rw [k]; exact c
    · rw [k]; exact d
    · rw [k]; exact e.agree ag hw
    · rw [k]; exact g.agree ag hw

theorem Focus.mono {h : H α} {X Y : Nat → Prop} (hxy : ∀ i, Y i → X i) {x : Nat} {t : T α} (f : Focus h X x t) : Focus h Y x t := by
  cases t with
  | leaf => exact f
  | node c l v r =>
    obtain ⟨a, b, c, d, e, g⟩ := f
    exact ⟨a, b, c, d, e.mono hxy, g.mono hxy⟩

/-- With nothing to avoid there is no difference. -/
def Any : Nat → Prop := fun _ => False

theorem Focus.tree {h : H α} {X : Nat → Prop} {x : Nat} {t : T α} (f : Focus h X x t) : Tree h Any x t := by
  cases t with
  | leaf => exact f
  | node c l v r =>
    obtain ⟨a, b, c, d, e, g⟩ := f
    exact ⟨a, b, fun q => q, c, d, e.mono (fun _ q => q.elim), g.mono (fun _ q => q.elim)⟩

theorem Tree.focus {h : H α} {X : Nat → Prop} {x : Nat} {t : T α} (f : Tree h X x t) : Focus h X x t := by
  cases t with
  | leaf => exact f
  | node c l v r =>
    obtain ⟨a, b, _, c, d, e, g⟩ := f
    exact ⟨a, b, c, d, e, g⟩

theorem kid_other (n : Node α) (s : Bool) (h : H α) (X : Nat → Prop) (t u : T α) (a : Tree h X (n.kid s) t)
    (b : Tree h X (n.kid (!s)) u) : (s = true → Tree h X n.left t ∧ Tree h X n.right u) ∧
      (s = false → Tree h X n.left u ∧ Tree h X n.right t) := by
  cases s
  · exact ⟨fun h => (by cases h), fun _ => ⟨b, a⟩⟩
  · exact ⟨fun _ => ⟨a, b⟩, fun h => (by cases h)⟩

/-- A node with the given subtrees on a side and the other. -/
theorem Tree.mk {h : H α} {X : Nat → Prop} {i : Nat} {s c : Bool} {t u : T α} {v : α} (h0 : i ≠ 0) (hi : i < h.next) (hx : ¬ X i)
    (hc : (h.mem i).red = c) (hv : (h.mem i).value = some v) (ht : Tree h X ((h.mem i).kid s) t)
    (hu : Tree h X ((h.mem i).kid (!s)) u) : Tree h X i (mk s c t v u) := by
  cases s
  · exact ⟨h0, hi, hx, hc, hv, hu, ht⟩
  · exact ⟨h0, hi, hx, hc, hv, ht, hu⟩

theorem Focus.mk {h : H α} {X : Nat → Prop} {i : Nat} {s c : Bool} {t u : T α} {v : α} (h0 : i ≠ 0) (hi : i < h.next)
    (hc : (h.mem i).red = c) (hv : (h.mem i).value = some v) (ht : Tree h X ((h.mem i).kid s) t)
    (hu : Tree h X ((h.mem i).kid (!s)) u) : Focus h X i (PersistentSet.mk s c t v u) := by
  cases s
  · exact ⟨h0, hi, hc, hv, hu, ht⟩
  · exact ⟨h0, hi, hc, hv, ht, hu⟩

theorem Spine.tree {h : H α} {X : Nat → Prop} : ∀ {as : List Nat} {fs : List (Frame α)} {x root : Nat} {t : T α},
    Spine h X x as fs root → Tree h Any x t → Tree h Any root (plug t fs) := by
  intro as
  induction as with
  | nil =>
    intro fs x root t s ht
    cases fs with
    | nil =>
      have : root = x := s
      subst this
      exact ht
    | cons f fs => exact s.elim
  | cons a as ih =>
    intro fs x root t s ht
    cases fs with
    | nil => exact s.elim
    | cons f fs =>
      obtain ⟨a1, a2, a3, a4, a5, a6, a7⟩ := s
      refine ih a7 (t := plug1 t f) ?_
      unfold plug1
      refine Tree.mk a1 a2 (fun q => q) a3 a4 ?_ (a6.mono (fun _ q => q.elim))
      rw [a5]; exact ht

theorem spine_lt {h : H α} {X : Nat → Prop} : ∀ {as : List Nat} {fs : List (Frame α)} {x root : Nat},
    Spine h X x as fs root → ∀ a ∈ as, a < h.next := by
  intro as
  induction as with
  | nil => intro _ _ _ _ a ha; exact absurd ha (by simp)
  | cons b as ih =>
    intro fs x root s a ha
    cases fs with
    | nil => exact s.elim
    | cons f fs =>
      rcases List.mem_cons.1 ha with q | q
      · rw [q]; exact s.2.1
      · exact ih s.2.2.2.2.2.2 a q

theorem spine_pos {h : H α} {X : Nat → Prop} : ∀ {as : List Nat} {fs : List (Frame α)} {x root : Nat},
    Spine h X x as fs root → ∀ a ∈ as, a ≠ 0 := by
  intro as
  induction as with
  | nil => intro _ _ _ _ a ha; exact absurd ha (by simp)
  | cons b as ih =>
    intro fs x root s a ha
    cases fs with
    | nil => exact s.elim
    | cons f fs =>
      rcases List.mem_cons.1 ha with q | q
      · rw [q]; exact s.1
      · exact ih s.2.2.2.2.2.2 a q

theorem spine_root {h : H α} {X : Nat → Prop} : ∀ {as : List Nat} {fs : List (Frame α)} {x root : Nat},
    Spine h X x as fs root → root ∈ x :: as := by
  intro as
  induction as with
  | nil =>
    intro fs x root s
    cases fs with
    | nil =>
      have : root = x := s
      simp [this]
    | cons f fs => exact s.elim
  | cons b as ih =>
    intro fs x root s
    cases fs with
    | nil => exact s.elim
    | cons f fs => exact List.mem_cons_of_mem _ (ih s.2.2.2.2.2.2)

/-! ### A tree has no cycles -/

theorem Tree.unique {h : H α} : ∀ {t u : T α} {X Y : Nat → Prop} {i : Nat}, Tree h X i t → Tree h Y i u → t = u := by
  intro t
  induction t with
  | leaf =>
    intro u X Y i a b
    cases u with
    | leaf => rfl
    | node c l v r => exact absurd a b.1
  | node c l v r il ir =>
    intro u X Y i a b
    cases u with
    | leaf => exact absurd b a.1
    | node c' l' v' r' =>
      obtain ⟨_, _, _, a4, a5, a6, a7⟩ := a
      obtain ⟨_, _, _, b4, b5, b6, b7⟩ := b
      rw [il a6 b6, ir a7 b7]
      rw [a4] at b4
      rw [a5] at b5
      cases b4
      cases b5
      rfl

theorem Tree.avoid {h : H α} {i : Nat} {t : T α} (ht : Tree h Any i t) : ∀ {u : T α} {j : Nat}, sizeOf u < sizeOf t → Tree h Any j u →
    Tree h (fun k => k = i) j u := by
  intro u
  induction u with
  | leaf => exact fun _ q => q
  | node c l v r il ir =>
    intro j hs hu
    have hu' := hu
    obtain ⟨a, b, c, d, e, f, g⟩ := hu
    simp only [T.node.sizeOf_spec] at hs
    refine ⟨a, b, ?_, d, e, il (by omega) f, ir (by omega) g⟩
    rintro rfl
    have := Tree.unique ht hu'
    rw [this] at hs
    simp only [T.node.sizeOf_spec] at hs
    omega

theorem Tree.self {h : H α} {i : Nat} {t : T α} (ht : Tree h Any i t) : Focus h (fun k => k = i) i t := by
  cases t with
  | leaf => exact ht
  | node c l v r =>
    have hh := ht
    obtain ⟨a, b, c, d, e, f, g⟩ := ht
    refine ⟨a, b, d, e, Tree.avoid hh ?_ f, Tree.avoid hh ?_ g⟩
    · simp only [T.node.sizeOf_spec]; omega
    · simp only [T.node.sizeOf_spec]; omega

/-! ### Writing -/

@[simp] theorem setRed_next (h : H α) (i : Nat) (c : Bool) : (setRed h i c).next = h.next := rfl
@[simp] theorem setKid_next (h : H α) (i : Nat) (s : Bool) (k : Nat) : (setKid h i s k).next = h.next := rfl
@[simp] theorem setValue_next (h : H α) (i : Nat) (v : Option α) : (setValue h i v).next = h.next := rfl
@[simp] theorem copy_next (h : H α) (i : Nat) : (copy h i).2.next = h.next + 1 := rfl
@[simp] theorem copy_fst (h : H α) (i : Nat) : (copy h i).1 = h.next := rfl

theorem setRed_mem (h : H α) (i : Nat) (c : Bool) (j : Nat) :
    (setRed h i c).mem j = if j = i then { h.mem i with red := c } else h.mem j := rfl

theorem setKid_mem (h : H α) (i : Nat) (s : Bool) (k j : Nat) :
    (setKid h i s k).mem j = if j = i then (h.mem i).withKid s k else h.mem j := rfl

theorem setValue_mem (h : H α) (i : Nat) (v : Option α) (j : Nat) :
    (setValue h i v).mem j = if j = i then { h.mem i with value := v } else h.mem j := rfl

theorem copy_mem (h : H α) (i j : Nat) : (copy h i).2.mem j = if j = h.next then h.mem i else h.mem j := rfl

@[simp] theorem withKid_red (n : Node α) (s : Bool) (k : Nat) : (n.withKid s k).red = n.red := by cases s <;> rfl
@[simp] theorem withKid_value (n : Node α) (s : Bool) (k : Nat) : (n.withKid s k).value = n.value := by cases s <;> rfl
@[simp] theorem withKid_kid (n : Node α) (s : Bool) (k : Nat) : (n.withKid s k).kid s = k := by cases s <;> rfl
@[simp] theorem withKid_other (n : Node α) (s : Bool) (k : Nat) : (n.withKid s k).kid (!s) = n.kid (!s) := by cases s <;> rfl
@[simp] theorem withKid_other' (n : Node α) (s : Bool) (k : Nat) : (n.withKid (!s) k).kid s = n.kid s := by cases s <;> rfl
@[simp] theorem red_kid (n : Node α) (c s : Bool) : ({ n with red := c } : Node α).kid s = n.kid s := by cases s <;> rfl
@[simp] theorem value_kid (n : Node α) (v : Option α) (s : Bool) : ({ n with value := v } : Node α).kid s = n.kid s := by cases s <;> rfl

theorem setRed_agree (h : H α) (i : Nat) (c : Bool) : Agree (fun k => k = i) h (setRed h i c) :=
  ⟨Nat.le_refl _, fun j _ hj => by rw [setRed_mem, if_neg hj]⟩

theorem setKid_agree (h : H α) (i : Nat) (s : Bool) (k : Nat) : Agree (fun k => k = i) h (setKid h i s k) :=
  ⟨Nat.le_refl _, fun j _ hj => by rw [setKid_mem, if_neg hj]⟩

theorem setValue_agree (h : H α) (i : Nat) (v : Option α) : Agree (fun k => k = i) h (setValue h i v) :=
  ⟨Nat.le_refl _, fun j _ hj => by rw [setValue_mem, if_neg hj]⟩

theorem copy_agree (W : Nat → Prop) (h : H α) (i : Nat) : Agree W h (copy h i).2 :=
  ⟨Nat.le_succ _, fun j hj _ => by rw [copy_mem, if_neg (by omega)]⟩

theorem copyKid_fst (h : H α) (i : Nat) (s : Bool) : (copyKid h i s).1 = h.next := rfl
theorem copyKid_next (h : H α) (i : Nat) (s : Bool) : (copyKid h i s).2.next = h.next + 1 := rfl

theorem copyKid_mem (h : H α) (i : Nat) (s : Bool) (hi : i < h.next) (j : Nat) :
    (copyKid h i s).2.mem j =
      if j = i then (h.mem i).withKid s h.next else if j = h.next then h.mem ((h.mem i).kid s) else h.mem j := by
  have : i ≠ h.next := by omega
  simp only [copyKid, setKid_mem, copy_mem, copy_fst, this, if_false]

theorem copyKid_agree (h : H α) (i : Nat) (s : Bool) (hi : i < h.next) : Agree (fun k => k = i) h (copyKid h i s).2 :=
  ⟨Nat.le_succ _, fun j hj hn => by rw [copyKid_mem _ _ _ hi, if_neg hn, if_neg (by omega)]⟩

theorem rot_fst (h : H α) (n : Nat) (s : Bool) : (rot h n s).1 = h.next := rfl
theorem rot_next (h : H α) (n : Nat) (s : Bool) : (rot h n s).2.next = h.next + 1 := rfl

theorem rot_mem (h : H α) (n : Nat) (s : Bool) (hn : n < h.next) (j : Nat) :
    (rot h n s).2.mem j =
      if j = n then (h.mem n).withKid s ((h.mem ((h.mem n).kid s)).kid (!s))
      else if j = h.next then (h.mem ((h.mem n).kid s)).withKid (!s) n else h.mem j := by
  have h1 : n ≠ h.next := by omega
  have h2 : h.next ≠ n := by omega
  simp only [rot, setKid_mem, copy_mem, copy_fst, h1, if_false, if_true, if_neg h2]
  by_cases e1 : j = h.next
  · subst e1
    simp only [if_true, if_neg h2]
  · simp only [if_neg e1]

theorem rot_agree (h : H α) (n : Nat) (s : Bool) (hn : n < h.next) : Agree (fun k => k = n) h (rot h n s).2 :=
  ⟨Nat.le_succ _, fun j hj hne => by rw [rot_mem _ _ _ hn, if_neg hne, if_neg (by omega)]⟩

/-- Painting the root. -/
theorem Tree.paint {h : H α} {i : Nat} {t : T α} (h0 : (h.mem 0).red = false) (ht : Tree h Any i t) :
    Tree (setRed h i false) Any i (t.paint false) := by
  cases t with
  | leaf => exact ht
  | node c l v r =>
    have hf := ht.self
    obtain ⟨a, b, c, d, e, f⟩ := hf
    have ag := setRed_agree h i false
    refine ⟨a, b, fun q => q, ?_, ?_, ?_, ?_⟩
    · rw [setRed_mem, if_pos rfl]
    · rw [setRed_mem, if_pos rfl]; exact d
    · rw [setRed_mem, if_pos rfl]; exact (e.agree ag (fun _ _ q => q)).mono (fun _ q => q.elim)
    · rw [setRed_mem, if_pos rfl]; exact (f.agree ag (fun _ _ q => q)).mono (fun _ q => q.elim)

theorem Focus.paint {h : H α} {X : Nat → Prop} {x : Nat} {t : T α} (c : Bool) (hx : X x) (f : Focus h X x t) :
    Focus (setRed h x c) X x (t.paint c) := by
  cases t with
  | leaf => exact f
  | node c' l v r =>
    obtain ⟨a, b, c', d, e, g⟩ := f
    have ag := setRed_agree h x c
    refine ⟨a, b, ?_, ?_, ?_, ?_⟩
    · rw [setRed_mem, if_pos rfl]
    · rw [setRed_mem, if_pos rfl]; exact d
    · rw [setRed_mem, if_pos rfl]; exact e.agree ag (fun i _ q => by subst q; exact hx)
    · rw [setRed_mem, if_pos rfl]; exact g.agree ag (fun i _ q => by subst q; exact hx)

/-! ### Looking up -/

/-- A path in the store: node `x` with the tree `t`, its ancestors, and the root.  `X` has the nodes that may be written. -/
structure At (h : H α) (X : Nat → Prop) (x : Nat) (t : T α) (as : List Nat) (fs : List (Frame α)) (root : Nat) : Prop where
  nodup : (x :: as).Nodup
  own : ∀ a ∈ x :: as, X a
  focus : Focus h X x t
  spine : Spine h X x as fs root

/-- `NullNode` -/
structure Null (h : H α) : Prop where
  pos : 0 < h.next
  mem : h.mem 0 = ⟨false, 0, 0, none⟩

theorem Null.agree {h h' : H α} {W : Nat → Prop} (n : Null h) (ag : Agree W h h') (hw : ¬ W 0) : Null h' :=
  ⟨Nat.lt_of_lt_of_le n.pos ag.grow, by rw [ag.keep 0 n.pos hw]; exact n.mem⟩

/-- What `find` gives: the path of the zipper. -/
structure Found (n0 : Nat) (h0 h : H α) (fresh : Bool) (node : Nat) (as : List Nat) (root : Nat) (p : PersistentSet.Path α) : Prop where
  fresh : fresh = p.fresh
  path : At h (fun i => n0 ≤ i) node p.node as p.above root
  agree : Agree (fun i => n0 ≤ i) h0 h

theorem findLoop_ok (cmp : α → α → Int) (v : α) (size : Int) (n0 : Nat) (hn0 : 0 < n0) (root : Nat) :
    ∀ (t : T α) (fuel : Nat) (h : H α) (old new : Nat) (as : List Nat) (fs : List (Frame α)), t.depth < fuel → Null h →
      Tree h (fun i => n0 ≤ i) old t → n0 ≤ h.next → (new :: as).Nodup → (∀ a ∈ new :: as, n0 ≤ a) → new < h.next →
      h.mem new = h.mem old → Spine h (fun i => n0 ≤ i) new as fs root →
      ∃ h' fresh node as', findLoop cmp v fuel h old new as = some (h', fresh, node, as') ∧
        Found n0 h h' fresh node as' root (PersistentSet.findLoop cmp v size t fs) := by
  intro t
  induction t with
  | leaf =>
    intro fuel h old new as fs hf hn ht hle nd own hnew hmem sp
    have : old = 0 := ht
    subst this
    obtain ⟨f, rfl⟩ : ∃ f, fuel = f + 1 := ⟨fuel - 1, by omega⟩
    have hX : n0 ≤ new := own new (by simp)
    have ag : Agree (fun k => k = new) h (setValue h new (some v)) := setValue_agree _ _ _
    refine ⟨setValue h new (some v), true, new, as, by simp [findLoop], rfl, ⟨nd, own, ?_, ?_⟩, ?_⟩
    · refine ⟨by omega, hnew, ?_, ?_, ?_, ?_⟩
      · rw [setValue_mem, if_pos rfl]; simp only [hmem, hn.mem]; rfl
      · rw [setValue_mem, if_pos rfl]; rfl
      · rw [setValue_mem, if_pos rfl]; simp only [hmem, hn.mem]; exact rfl
      · rw [setValue_mem, if_pos rfl]; simp only [hmem, hn.mem]; exact rfl
    · refine Spine.agree ag (fun i _ q => by subst q; exact hX) ?_ sp
      intro a ha q
      subst q
      exact (List.nodup_cons.1 nd).1 ha
    · exact ag.mono (fun i q => .inl (by subst q; exact hX))
  | node c l x r il ir =>
    intro fuel h old new as fs hf hn ht hle nd own hnew hmem sp
    obtain ⟨f, rfl⟩ : ∃ f, fuel = f + 1 := ⟨fuel - 1, by omega⟩
    have ht' := ht
    obtain ⟨t1, t2, t3, t4, t5, t6, t7⟩ := ht
    have hX : n0 ≤ new := own new (by simp)
    simp only [T.depth] at hf
    simp only [findLoop, if_neg t1, t5, PersistentSet.findLoop]
    -- one step down
    have down : ∀ (s : Bool) (k : T α) (k' : T α), k.depth < f → Tree h (fun i => n0 ≤ i) ((h.mem old).kid s) k →
        Tree h (fun i => n0 ≤ i) ((h.mem old).kid (!s)) k' →
        (∀ (fuel : Nat) (h : H α) (old new : Nat) (as : List Nat) (fs : List (Frame α)), k.depth < fuel → Null h →
          Tree h (fun i => n0 ≤ i) old k → n0 ≤ h.next → (new :: as).Nodup → (∀ a ∈ new :: as, n0 ≤ a) → new < h.next →
          h.mem new = h.mem old → Spine h (fun i => n0 ≤ i) new as fs root →
          ∃ h' fresh node as', findLoop cmp v fuel h old new as = some (h', fresh, node, as') ∧
            Found n0 h h' fresh node as' root (PersistentSet.findLoop cmp v size k fs)) →
        ∃ h' fresh node as', findLoop cmp v f (setKid (copy h ((h.mem old).kid s)).2 new s h.next) ((h.mem old).kid s) h.next (new :: as)
            = some (h', fresh, node, as') ∧
          Found n0 h h' fresh node as' root (PersistentSet.findLoop cmp v size k (⟨s, c, x, k'⟩ :: fs)) := by
      intro s k k' hk tk tk' ih
      have e : setKid (copy h ((h.mem old).kid s)).2 new s h.next = (copyKid h new s).2 := by
        simp only [copyKid, copy_fst, hmem]
      rw [e]
      have ag := copyKid_agree h new s hnew
      have agn : Agree (fun i => n0 ≤ i) h (copyKid h new s).2 := ag.mono (fun i q => .inl (by subst q; exact hX))
      have hw : ∀ i, i < h.next → (fun k => k = new) i → n0 ≤ i := fun i _ q => by
        have : i = new := q
        rw [this]; exact hX
      have hnn : new ≠ h.next := by omega
      have hnn' : h.next ≠ new := by omega
      obtain ⟨h', fresh, node, as', e1, ⟨f1, f2, f3⟩⟩ := ih f (copyKid h new s).2 ((h.mem old).kid s) h.next (new :: as)
        (⟨s, c, x, k'⟩ :: fs) hk (hn.agree agn (by omega)) (tk.agree ag hw) (by rw [copyKid_next]; omega) (by
          refine List.nodup_cons.2 ⟨?_, nd⟩
          intro hm
          rcases List.mem_cons.1 hm with q | q
          · omega
          · exact absurd (spine_lt sp _ q) (by omega)) (by
          intro a ha
          rcases List.mem_cons.1 ha with q | q
          · omega
          · exact own a q) (by rw [copyKid_next]; omega) (by
          have hk0 : (h.mem old).kid s ≠ new ∧ (h.mem old).kid s ≠ h.next := by
            cases k with
            | leaf =>
              have : (h.mem old).kid s = 0 := tk
              rw [this]
              exact ⟨by omega, by omega⟩
            | node _ _ _ _ => exact ⟨fun q => tk.2.2.1 (by rw [q]; exact hX), fun q => absurd tk.2.1 (by omega)⟩
          rw [copyKid_mem _ _ _ hnew, copyKid_mem _ _ _ hnew, if_neg hnn', if_pos rfl, if_neg hk0.1, if_neg hk0.2, hmem]) (by
          refine ⟨by omega, by rw [copyKid_next]; omega, ?_, ?_, ?_, ?_, ?_⟩
          · rw [copyKid_mem _ _ _ hnew, if_pos rfl, withKid_red, hmem]; exact t4
          · rw [copyKid_mem _ _ _ hnew, if_pos rfl, withKid_value, hmem]; exact t5
          · rw [copyKid_mem _ _ _ hnew, if_pos rfl, withKid_kid]
          · rw [copyKid_mem _ _ _ hnew, if_pos rfl, withKid_other, hmem]; exact tk'.agree ag hw
          · refine Spine.agree ag hw ?_ sp
            intro a ha q
            subst q
            exact (List.nodup_cons.1 nd).1 ha)
      exact ⟨h', fresh, node, as', e1, f1, f2, agn.trans f3⟩
    by_cases c1 : cmp v x < 0
    · rw [if_pos c1, if_pos c1]
      exact down true l r (by omega) t6 t7 il
    · rw [if_neg c1, if_neg c1]
      by_cases c2 : cmp v x > 0
      · rw [if_pos c2, if_pos c2]
        exact down false r l (by omega) t7 t6 ir
      · rw [if_neg c2, if_neg c2]
        refine ⟨h, false, new, as, rfl, rfl, ⟨nd, own, ?_, sp⟩, Agree.refl _ _⟩
        refine ⟨by omega, hnew, ?_, ?_, ?_, ?_⟩
        · rw [hmem]; exact t4
        · rw [hmem]; exact t5
        · rw [hmem]; exact t6
        · rw [hmem]; exact t7

end Avian.PersistentNodes

namespace Avian.PersistentNodes

open Avian.PersistentSet (Exn T Frame mk plug1 plug PSet)

variable {α : Type}

theorem Tree.below {h : H α} : ∀ {t : T α} {i : Nat}, Tree h Any i t → Tree h (fun i => h.next ≤ i) i t := by
  intro t
  induction t with
  | leaf => exact fun q => q
  | node c l v r il ir =>
    rintro i ⟨a, b, c, d, e, f, g⟩
    exact ⟨a, b, by omega, d, e, il f, ir g⟩

theorem find_ok (cmp : α → α → Int) (v : α) {h : H α} {s : Set} {t : T α} (hn : Null h) (ht : Tree h Any s.root t) {fuel : Nat}
    (hf : t.depth < fuel) :
    ∃ h' p, find cmp fuel h s v = some (h', p) ∧ p.size = s.size ∧
      Found h.next h h' p.fresh p.node p.ancestors p.root (PersistentSet.find cmp ⟨t, s.size⟩ v) := by
  have ag : Agree (fun i => h.next ≤ i) h (copy h s.root).2 := copy_agree _ _ _
  have hp := hn.pos
  have hr : s.root < h.next := by
    cases t with
    | leaf =>
      have : s.root = 0 := ht
      omega
    | node _ _ _ _ => exact ht.2.1
  obtain ⟨h', fresh, node, as, e, f1, f2, f3⟩ := findLoop_ok cmp v s.size h.next hn.pos h.next t fuel (copy h s.root).2 s.root h.next [] [] hf
    (hn.agree ag (by omega)) (ht.below.agree ag (fun i _ q => q)) (by rw [copy_next]; omega) (by simp) (by simp)
    (by rw [copy_next]; omega) (by rw [copy_mem, copy_mem, if_pos rfl, if_neg (by omega)]) rfl
  refine ⟨h', ⟨fresh, node, h.next, s.size, as⟩, ?_, rfl, f1, f2, ag.trans f3⟩
  simp only [find, copy_fst, e]

/-! ### Sides -/

theorem side_eq {h : H α} {X : Nat → Prop} {n : Node α} {x : Nat} {s : Bool} {u : T α} (hk : n.kid s = x) (hu : Tree h X (n.kid (!s)) u)
    (hx : X x) (h0 : x ≠ 0 ∨ u ≠ .leaf) : (decide (x = n.left)) = s := by
  cases s
  · have hl : Tree h X n.left u := hu
    have : n.left ≠ x := by
      cases u with
      | leaf =>
        have : n.left = 0 := hl
        rcases h0 with h0 | h0
        · omega
        · exact absurd rfl h0
      | node c l v r => exact fun q => hl.2.2.1 (q ▸ hx)
    exact decide_eq_false (fun q => this q.symm)
  · exact decide_eq_true hk.symm

theorem kid_ne {h : H α} {X : Nat → Prop} {n : Nat} {x : Nat} {u : T α} (hu : Tree h X n u) (hx : X x) (h0 : x ≠ 0) : n ≠ x := by
  cases u with
  | leaf =>
    have : n = 0 := hu
    omega
  | node c l v r => exact fun q => hu.2.2.1 (q ▸ hx)

theorem replaceKid_eq {h : H α} {X : Nat → Prop} {a x n : Nat} {s first : Bool} {u : T α} (hk : (h.mem a).kid s = x)
    (hu : Tree h X ((h.mem a).kid (!s)) u) (hx : X x) (h0 : x ≠ 0) : replaceKid h a first x n = setKid h a s n := by
  have := kid_ne hu hx h0
  unfold replaceKid
  cases s <;> cases first <;> simp_all

/-- Something else is put below the ancestors. -/
theorem replaceTop_ok {h : H α} {X : Nat → Prop} {x n root : Nat} {as : List Nat} {fs : List (Frame α)} (first : Bool)
    (sp : Spine h X x as fs root) (nd : as.Nodup) (own : ∀ a ∈ as, X a) (hx : X x) (h0 : x ≠ 0) :
    ∃ h' root', replaceTop h root as first x n = (h', root') ∧ Spine h' X n as fs root' ∧ Agree (fun i => as.head? = some i) h h' := by
  cases as with
  | nil =>
    cases fs with
    | nil => exact ⟨h, n, rfl, rfl, Agree.refl _ _⟩
    | cons f fs => exact sp.elim
  | cons a as =>
    cases fs with
    | nil => exact sp.elim
    | cons f fs =>
      obtain ⟨a1, a2, a3, a4, a5, a6, a7⟩ := sp
      have ag := setKid_agree h a f.left n
      have hw : ∀ i, i < h.next → (fun k => k = a) i → X i := fun i _ q => by
        have : i = a := q
        rw [this]; exact own a (by simp)
      refine ⟨setKid h a f.left n, root, ?_, ⟨a1, a2, ?_, ?_, ?_, ?_, ?_⟩, ?_⟩
      · simp only [replaceTop]; rw [replaceKid_eq a5 a6 hx h0]
      · rw [setKid_mem, if_pos rfl, withKid_red]; exact a3
      · rw [setKid_mem, if_pos rfl, withKid_value]; exact a4
      · rw [setKid_mem, if_pos rfl, withKid_kid]
      · rw [setKid_mem, if_pos rfl, withKid_other]; exact a6.agree ag hw
      · refine Spine.agree ag hw ?_ a7
        intro b hb q
        have : b = a := q
        subst this
        exact (List.nodup_cons.1 nd).1 hb
      · exact ag.mono (fun i q => .inl (by simp [q]))

/-! ### Adding -/

/-- The nodes of a path. -/
def On (x : Nat) (as : List Nat) : Nat → Prop := fun i => i ∈ x :: as

theorem At.on {h : H α} {X : Nat → Prop} {x root : Nat} {t : T α} {as : List Nat} {fs : List (Frame α)} (a : At h X x t as fs root) :
    At h (On x as) x t as fs root :=
  ⟨a.nodup, fun _ q => q, a.focus.mono (fun i q => a.own i q), a.spine.mono (fun i q => a.own i q)⟩

/-- A node whose subtrees are clear of `X`, on the given side and the other. -/
structure Cell (h : H α) (X : Nat → Prop) (i : Nat) (s c : Bool) (v : α) (t u : T α) : Prop where
  ne : i ≠ 0
  lt : i < h.next
  red : (h.mem i).red = c
  value : (h.mem i).value = some v
  kid : Tree h X ((h.mem i).kid s) t
  other : Tree h X ((h.mem i).kid (!s)) u

theorem Cell.tree {h : H α} {X : Nat → Prop} {i : Nat} {s c : Bool} {v : α} {t u : T α} (a : Cell h X i s c v t u) (hx : ¬ X i) :
    Tree h X i (PersistentSet.mk s c t v u) := Tree.mk a.ne a.lt hx a.red a.value a.kid a.other

theorem Cell.focus {h : H α} {X : Nat → Prop} {i : Nat} {s c : Bool} {v : α} {t u : T α} (a : Cell h X i s c v t u) :
    Focus h X i (PersistentSet.mk s c t v u) := Focus.mk a.ne a.lt a.red a.value a.kid a.other

/-- The state after an inner grandchild was rotated above its parent. -/
structure Straight (h : H α) (p g : Nat) (rest : List Nat) (fs : List (Frame α)) (root : Nat) (t : T α) (pf gf : Frame α) : Prop where
  side : pf.left = gf.left
  fresh : p ∉ g :: rest
  parent : Cell h (On p (g :: rest)) p pf.left pf.red pf.v t pf.sib
  gne : g ≠ 0
  glt : g < h.next
  gvalue : (h.mem g).value = some gf.v
  gkid : (h.mem g).kid gf.left = p
  gother : Tree h (On p (g :: rest)) ((h.mem g).kid (!gf.left)) gf.sib
  spine : Spine h (On p (g :: rest)) g rest fs root

theorem straighten_ok {h : H α} {x p g root : Nat} {rest : List Nat} {t : T α} {pf gf : Frame α} {fs : List (Frame α)}
    (a : At h (On x (p :: g :: rest)) x t (p :: g :: rest) (pf :: gf :: fs) root) (ht : t ≠ .leaf) :
    ∃ p' h', straighten h x p g gf.left = (p', h') ∧
      Straight h' p' g rest fs root (PersistentSet.straighten t pf gf).1 (PersistentSet.straighten t pf gf).2 gf ∧
      Agree (On x (p :: g :: rest)) h h' := by
  obtain ⟨nd, own, fo, p1, p2, p3, p4, p5, p6, g1, g2, g3, g4, g5, g6, sp⟩ := a
  cases t with
  | leaf => exact absurd rfl ht
  | node tc tl tv tr =>
  obtain ⟨x1, x2, x3, x4, x5, x6⟩ := fo
  have hXx : On x (p :: g :: rest) x := by simp [On]
  have hXp : On x (p :: g :: rest) p := by simp [On]
  have hXg : On x (p :: g :: rest) g := by simp [On]
  simp only [List.nodup_cons, List.mem_cons, not_or] at nd
  obtain ⟨⟨nxp, nxg, nxr⟩, ⟨npg, npr⟩, ngr, ndr⟩ := nd
  have hoth := kid_ne p6 hXx x1
  have hpt : ∀ (Y : Nat → Prop), (∀ i, Y i → On x (p :: g :: rest) i ∧ i ≠ x) → Tree h Y x (.node tc tl tv tr) := fun Y hY =>
    ⟨x1, x2, fun q => (hY x q).2 rfl, x3, x4, x5.mono (fun i q => (hY i q).1), x6.mono (fun i q => (hY i q).1)⟩
  by_cases hs : pf.left = gf.left
  · -- nothing to do
    have e : straighten h x p g gf.left = (p, h) := by
      unfold straighten
      rw [if_neg]
      rw [← hs]
      exact fun q => hoth q.symm
    have e2 : PersistentSet.straighten (.node tc tl tv tr) pf gf = (.node tc tl tv tr, pf) := by
      simp only [PersistentSet.straighten, if_pos hs]
    have sub : ∀ i, On p (g :: rest) i → On x (p :: g :: rest) i := fun i q => List.mem_cons_of_mem _ q
    refine ⟨p, h, e, ?_, Agree.refl _ _⟩
    rw [e2]
    refine ⟨hs, by simp [npg, npr], ⟨p1, p2, p3, p4, ?_, p6.mono sub⟩, g1, g2, g4, g5, g6.mono sub, sp.mono sub⟩
    rw [p5]
    refine hpt _ (fun i q => ⟨sub i q, ?_⟩)
    rintro rfl
    simp only [On, List.mem_cons] at q
    rcases q with q | q | q
    · exact nxp q
    · exact nxg q
    · exact nxr q
  · -- the child is rotated above its parent
    have hps : pf.left = !gf.left := by
      revert hs
      cases pf.left <;> cases gf.left <;> simp
    have hgs : gf.left = !pf.left := by rw [hps, Bool.not_not]
    have c1 := rot_agree h p (!gf.left) p2
    have m1 := rot_mem h p (!gf.left) p2
    have hk : (h.mem p).kid (!gf.left) = x := by rw [← hps]; exact p5
    rw [hk] at m1
    simp only [Bool.not_not] at m1
    generalize hr1 : (rot h p (!gf.left)).2 = h1 at c1 m1
    have hh1 : h1.next = h.next + 1 := by rw [← hr1]; rfl
    have hxn : x ≠ h.next := by omega
    have hpn : h.next ≠ p := by omega
    have hgn : h.next ≠ g := by omega
    have hgp : g ≠ p := fun q => npg q.symm
    have cX : ∀ i, i < h.next → (fun k => k = p) i → On x (p :: g :: rest) i := fun i _ q => by
      have : i = p := q
      rw [this]; exact hXp
    have hrk : replaceKid h1 g false p h.next = setKid h1 g gf.left h.next := by
      refine replaceKid_eq (X := On x (p :: g :: rest)) (u := gf.sib) ?_ ?_ hXp p1
      · rw [m1, if_neg hgp, if_neg (by omega)]; exact g5
      · rw [m1, if_neg hgp, if_neg (by omega)]; exact g6.agree c1 cX
    have e : straighten h x p g gf.left = (h.next, setKid h1 g gf.left h.next) := by
      unfold straighten
      rw [if_pos hk.symm]
      simp only [rot_fst, hr1]
      rw [hrk]
    have m2 : ∀ j, (setKid h1 g gf.left h.next).mem j = if j = g then (h1.mem g).withKid gf.left h.next else h1.mem j := fun j => rfl
    have c2 := setKid_agree h1 g gf.left h.next
    generalize hr2 : setKid h1 g gf.left h.next = h2 at e m2 c2
    have hh2 : h2.next = h.next + 1 := by rw [← hr2]; exact hh1
    have ag : Agree (On x (p :: g :: rest)) h h2 := by
      refine (c1.mono (W' := On x (p :: g :: rest)) ?_).trans_new c2 ?_
      · intro i q
        exact .inl (by rw [q]; exact hXp)
      · intro i q
        exact .inl (by rw [q]; exact hXg)
    have agpg : Agree (fun i => i = p ∨ i = g) h h2 :=
      (c1.mono (W' := fun i => i = p ∨ i = g) (fun i q => .inl (.inl q))).trans_new c2 (fun i q => .inl (.inr q))
    have mp : h2.mem p = (h.mem p).withKid (!gf.left) ((h.mem x).kid gf.left) := by
      rw [m2, if_neg npg, m1, if_pos rfl]
    have mn : h2.mem h.next = (h.mem x).withKid gf.left p := by
      rw [m2, if_neg hgn, m1, if_neg hpn, if_pos rfl]
    have mg : h2.mem g = (h.mem g).withKid gf.left h.next := by
      rw [m2, if_pos rfl, m1, if_neg hgp, if_neg (by omega)]
    -- what is kept
    have sub : ∀ i, i < h.next → On h.next (g :: rest) i → On x (p :: g :: rest) i := by
      intro i hi q
      simp only [On, List.mem_cons] at q ⊢
      rcases q with q | q | q
      · omega
      · exact .inr (.inr (.inl q))
      · exact .inr (.inr (.inr q))
    have subpg : ∀ i, i < h.next → (fun i => i = p ∨ i = g) i → On x (p :: g :: rest) i := by
      intro i _ q
      rcases q with q | q
      · rw [q]; exact hXp
      · rw [q]; exact hXg
    have keep : ∀ {i : Nat} {u : T α}, Tree h (On x (p :: g :: rest)) i u → Tree h2 (On h.next (g :: rest)) i u :=
      fun hu => hu.keep agpg subpg sub
    have e2 : PersistentSet.straighten (.node tc tl tv tr) pf gf =
        (PersistentSet.mk gf.left pf.red pf.sib pf.v (if gf.left then tl else tr), ⟨gf.left, tc, tv, if gf.left then tr else tl⟩) := by
      simp only [PersistentSet.straighten, if_neg hs, PersistentSet.mk]
      cases gf.left <;> rfl
    refine ⟨h.next, h2, e, ?_, ag⟩
    rw [e2]
    have hpo : ¬ On h.next (g :: rest) p := by
      simp only [On, List.mem_cons, not_or]
      exact ⟨by omega, npg, npr⟩
    refine ⟨rfl, ?_, ⟨by omega, by omega, ?_, ?_, ?_, ?_⟩, g1, by omega, ?_, ?_, ?_, ?_⟩
    · simp only [List.mem_cons, not_or]
      exact ⟨by omega, fun q => absurd (spine_lt sp _ q) (by omega)⟩
    · rw [mn, withKid_red]; exact x3
    · rw [mn, withKid_value]; exact x4
    · rw [mn, withKid_kid]
      refine Tree.mk p1 (by omega) hpo ?_ ?_ ?_ ?_
      · rw [mp, withKid_red]; exact p3
      · rw [mp, withKid_value]; exact p4
      · rw [mp, withKid_other', hgs]; exact keep p6
      · rw [mp, withKid_kid]
        cases hg : gf.left
        · exact keep x6
        · exact keep x5
    · rw [mn, withKid_other]
      cases hg : gf.left
      · exact keep x5
      · exact keep x6
    · rw [mg, withKid_value]; exact g4
    · rw [mg, withKid_kid]
    · rw [mg, withKid_other]; exact keep g6
    · refine sp.keep agpg subpg sub ?_
      intro a ha q
      rcases q with q | q
      · exact npr (q ▸ ha)
      · exact ngr (q ▸ ha)

theorem rotate_ok {h : H α} {p g root : Nat} {rest : List Nat} {fs : List (Frame α)} {t : T α} {pf gf : Frame α}
    (a : Straight h p g rest fs root t pf gf) (nd : (g :: rest).Nodup) :
    ∃ h' root', replaceTop (rot (setRed (setRed h p false) g true) g gf.left).2 root rest false g
        (rot (setRed (setRed h p false) g true) g gf.left).1 = (h', root') ∧
      Tree h' Any root' (plug (PersistentSet.rotate t pf gf) fs) ∧ Agree (On p (g :: rest)) h h' ∧
      (On p (g :: rest) root' ∨ h.next ≤ root') := by
  obtain ⟨sd, fr, ⟨p1, p2, p3, p4, p5, p6⟩, g1, g2, g4, g5, g6, sp⟩ := a
  rw [sd] at p5 p6
  simp only [List.mem_cons, not_or] at fr
  obtain ⟨npg, npr⟩ := fr
  obtain ⟨ngr, ndr⟩ := List.nodup_cons.1 nd
  have hgp : g ≠ p := fun q => npg q.symm
  have hXp : On p (g :: rest) p := by simp [On]
  have hXg : On p (g :: rest) g := by simp [On]
  have c1 : Agree (fun i => i = p ∨ i = g) h (setRed (setRed h p false) g true) :=
    ((setRed_agree h p false).mono (W' := fun i => i = p ∨ i = g) (fun i q => .inl (.inl q))).trans_new
      (setRed_agree _ g true) (fun i q => .inl (.inr q))
  have m1 : ∀ j, (setRed (setRed h p false) g true).mem j =
      if j = g then { h.mem g with red := true } else if j = p then { h.mem p with red := false } else h.mem j := by
    intro j
    rw [setRed_mem, setRed_mem, setRed_mem, if_neg hgp]
  have hn1 : (setRed (setRed h p false) g true).next = h.next := rfl
  generalize setRed (setRed h p false) g true = h1 at c1 m1 hn1
  have g2' : g < h1.next := by omega
  have c2 := rot_agree h1 g gf.left g2'
  have m2 := rot_mem h1 g gf.left g2'
  have hk : (h1.mem g).kid gf.left = p := by rw [m1, if_pos rfl, red_kid]; exact g5
  rw [hk, hn1] at m2
  have hn2 : (rot h1 g gf.left).2.next = h.next + 1 := by rw [rot_next, hn1]
  rw [rot_fst, hn1]
  generalize (rot h1 g gf.left).2 = h2 at c2 m2 hn2
  have ag : Agree (fun i => i = p ∨ i = g) h h2 := c1.trans_new c2 (fun i q => .inl (.inr q))
  have mg : h2.mem g = ({ h.mem g with red := true } : Node α).withKid gf.left ((h.mem p).kid (!gf.left)) := by
    rw [m2, if_pos rfl, m1, if_pos rfl, m1, if_neg npg, if_pos rfl, red_kid]
  have mn : h2.mem h.next = ({ h.mem p with red := false } : Node α).withKid (!gf.left) g := by
    rw [m2, if_neg (by omega), if_pos rfl, m1, if_neg npg, if_pos rfl]
  have subpg : ∀ i, i < h.next → (fun i => i = p ∨ i = g) i → On p (g :: rest) i := by
    intro i _ q
    rcases q with q | q
    · rw [q]; exact hXp
    · rw [q]; exact hXg
  have sub : ∀ i, i < h.next → On g rest i → On p (g :: rest) i := fun i _ q => List.mem_cons_of_mem _ q
  have sub' : ∀ i, i < h.next → (fun i => i ∈ rest) i → On p (g :: rest) i := fun i _ q =>
    List.mem_cons_of_mem _ (List.mem_cons_of_mem _ q)
  have sp2 : Spine h2 (On g rest) g rest fs root := by
    refine sp.keep ag subpg sub ?_
    intro a ha q
    rcases q with q | q
    · exact npr (q ▸ ha)
    · exact ngr (q ▸ ha)
  have hnr : h.next ∉ rest := fun q => absurd (spine_lt sp _ q) (by omega)
  have tn : Tree h2 (fun i => i ∈ rest) h.next (PersistentSet.rotate t pf gf) := by
    unfold PersistentSet.rotate
    refine Tree.mk (by omega) (by omega) hnr ?_ ?_ ?_ ?_
    · rw [mn, withKid_red]
    · rw [mn, withKid_value]; exact p4
    · rw [mn, withKid_other', red_kid]; exact p5.keep ag subpg sub'
    · rw [mn, withKid_kid]
      refine Tree.mk g1 (by omega) ngr ?_ ?_ ?_ ?_
      · rw [mg, withKid_red]
      · rw [mg, withKid_value]; exact g4
      · rw [mg, withKid_kid]; exact p6.keep ag subpg sub'
      · rw [mg, withKid_other, red_kid]; exact g6.keep ag subpg sub'
  obtain ⟨h', root', e, sp3, ag3⟩ := replaceTop_ok (n := h.next) false sp2 ndr (fun a ha => List.mem_cons_of_mem _ ha) (by simp [On]) g1
  have hhd : ∀ i, rest.head? = some i → i ∈ rest := fun i q => List.mem_of_mem_head? q
  refine ⟨h', root', e, sp3.tree ((tn.agree ag3 (fun i _ q => hhd i q)).mono (fun _ q => q.elim)), ?_, ?_⟩
  rotate_left
  · rcases List.mem_cons.1 (spine_root sp3) with q | q
    · exact .inr (by omega)
    · exact .inl (List.mem_cons_of_mem _ (List.mem_cons_of_mem _ q))
  refine (ag.mono (W' := On p (g :: rest)) (fun i q => ?_)).trans_new ag3 (fun i q => .inl ?_)
  · rcases q with q | q
    · exact .inl (by rw [q]; exact hXp)
    · exact .inl (by rw [q]; exact hXg)
  · exact List.mem_cons_of_mem _ (List.mem_cons_of_mem _ (hhd i q))

/-- Parent and uncle get black, the grandparent red. -/
theorem recolor_ok {h : H α} {x p g root : Nat} {rest : List Nat} {t : T α} {pf gf : Frame α} {fs : List (Frame α)}
    (a : At h (On x (p :: g :: rest)) x t (p :: g :: rest) (pf :: gf :: fs) root) (ht : t ≠ .leaf) (hu : gf.sib.isRed = true) (h' : H α)
    (e : h' = setRed (setRed (copyKid (setRed h p false) g (!gf.left)).2 (copyKid (setRed h p false) g (!gf.left)).1 false) g true) :
    At h' (On g rest) g (PersistentSet.recolor t pf gf) rest fs root ∧ Agree (On x (p :: g :: rest)) h h' := by
  obtain ⟨nd, own, fo, p1, p2, p3, p4, p5, p6, g1, g2, g3, g4, g5, g6, sp⟩ := a
  have hXp : On x (p :: g :: rest) p := by simp [On]
  have hXg : On x (p :: g :: rest) g := by simp [On]
  simp only [List.nodup_cons, List.mem_cons, not_or] at nd
  obtain ⟨⟨nxp, nxg, nxr⟩, ⟨npg, npr⟩, ngr, ndr⟩ := nd
  have hgp : g ≠ p := fun q => npg q.symm
  have ag : Agree (fun i => i = p ∨ i = g) h h' := by
    rw [e]
    refine Agree.trans_new (W' := fun k => k = g) ?_ (setRed_agree _ g true) (fun i q => .inl (.inr q))
    refine Agree.trans_new (W' := fun k => k = h.next) ?_ (setRed_agree _ _ false) (fun i q => .inr (Nat.le_of_eq q.symm))
    refine Agree.trans_new (W' := fun k => k = g) ?_ (copyKid_agree _ g _ g2) (fun i q => .inl (.inr q))
    exact (setRed_agree h p false).mono (fun i q => .inl (.inl q))
  cases hsib : gf.sib with
  | leaf => rw [hsib] at hu; exact absurd hu (by simp [PersistentSet.T.isRed])
  | node uc ul uv ur =>
  rw [hsib] at g6
  obtain ⟨u1, u2, u3, u4, u5, u6, u7⟩ := g6
  have hup : (h.mem g).kid (!gf.left) ≠ p := fun q => u3 (q ▸ hXp)
  have m0 : ∀ j, (setRed h p false).mem j = if j = p then { h.mem p with red := false } else h.mem j := fun j => rfl
  have m1 := copyKid_mem (setRed h p false) g (!gf.left) g2
  rw [m0 g, if_neg hgp, m0, if_neg hup, setRed_next] at m1
  have m2 : ∀ j, h'.mem j = if j = g then { ((h.mem g).withKid (!gf.left) h.next) with red := true }
      else if j = h.next then { h.mem ((h.mem g).kid (!gf.left)) with red := false }
      else if j = p then { h.mem p with red := false } else h.mem j := by
    intro j
    have hgn : g ≠ h.next := by omega
    have hng : h.next ≠ g := by omega
    rw [e]
    simp only [setRed_mem, copyKid_fst, setRed_next, m1, if_neg hgn, if_neg hng, if_true]
    by_cases q1 : j = g
    · simp only [if_pos q1]
    · simp only [if_neg q1]
      by_cases q2 : j = h.next
      · simp only [if_pos q2]
      · simp only [if_neg q2]
  have hn : h'.next = h.next + 1 := by rw [e]; rfl
  have mg : h'.mem g = { ((h.mem g).withKid (!gf.left) h.next) with red := true } := by rw [m2, if_pos rfl]
  have mn : h'.mem h.next = { h.mem ((h.mem g).kid (!gf.left)) with red := false } := by rw [m2, if_neg (by omega), if_pos rfl]
  have mp : h'.mem p = { h.mem p with red := false } := by rw [m2, if_neg npg, if_neg (by omega), if_pos rfl]
  have subpg : ∀ i, i < h.next → (fun i => i = p ∨ i = g) i → On x (p :: g :: rest) i := by
    intro i _ q
    rcases q with q | q
    · rw [q]; exact hXp
    · rw [q]; exact hXg
  have sub : ∀ i, i < h.next → On g rest i → On x (p :: g :: rest) i := fun i _ q => List.mem_cons_of_mem _ (List.mem_cons_of_mem _ q)
  have hpo : ¬ On g rest p := by
    simp only [On, List.mem_cons, not_or]; exact ⟨npg, npr⟩
  have hno : ¬ On g rest h.next := by
    simp only [On, List.mem_cons, not_or]; exact ⟨by omega, fun q => absurd (spine_lt sp _ q) (by omega)⟩
  have tx : Tree h' (On g rest) x t := by
    cases t with
    | leaf => exact absurd rfl ht
    | node tc tl tv tr =>
      obtain ⟨x1, x2, x3, x4, x5, x6⟩ := fo
      have hx : h'.mem x = h.mem x := ag.keep x x2 (fun q => by
        rcases q with q | q
        · exact nxp q
        · exact nxg q)
      refine ⟨x1, by omega, ?_, ?_, ?_, ?_, ?_⟩
      · simp only [On, List.mem_cons, not_or]; exact ⟨nxg, nxr⟩
      · rw [hx]; exact x3
      · rw [hx]; exact x4
      · rw [hx]; exact x5.keep ag subpg sub
      · rw [hx]; exact x6.keep ag subpg sub
  refine ⟨⟨List.nodup_cons.2 ⟨ngr, ndr⟩, fun _ q => q, ?_, ?_⟩, ?_⟩
  · unfold PersistentSet.recolor
    rw [plug1]
    refine Focus.mk g1 (by omega) ?_ ?_ ?_ ?_
    · rw [mg]
    · rw [mg, ← g4]; exact withKid_value _ _ _
    · rw [mg, red_kid, withKid_other', g5, plug1]
      refine Tree.mk p1 (by omega) hpo ?_ ?_ ?_ ?_
      · rw [mp]
      · rw [mp]; exact p4
      · rw [mp, red_kid, p5]; exact tx
      · rw [mp, red_kid]; exact p6.keep ag subpg sub
    · rw [mg, red_kid, withKid_kid, hsib]
      refine ⟨by omega, by omega, hno, ?_, ?_, ?_, ?_⟩
      · rw [mn]
      · rw [mn]; exact u5
      · rw [mn]; exact u6.keep ag subpg sub
      · rw [mn]; exact u7.keep ag subpg sub
  · refine sp.keep ag subpg sub ?_
    intro a ha q
    rcases q with q | q
    · exact npr (q ▸ ha)
    · exact ngr (q ▸ ha)
  · refine ag.mono (fun i q => .inl ?_)
    rcases q with q | q
    · rw [q]; exact hXp
    · rw [q]; exact hXg

theorem sib_red {h : H α} {X : Nat → Prop} {i : Nat} {t : T α} (hn : Null h) (ht : Tree h X i t) : (h.mem i).red = t.isRed := by
  cases t with
  | leaf =>
    have : i = 0 := ht
    rw [this, hn.mem]; rfl
  | node c l v r => exact ht.2.2.2.1

theorem recolor_ne (t : T α) (p g : Frame α) : PersistentSet.recolor t p g ≠ .leaf := by
  unfold PersistentSet.recolor
  rw [plug1, PersistentSet.mk]
  split <;> exact fun q => (by cases q)

theorem fixLoop_ok : ∀ (n : Nat) (fs : List (Frame α)) (h : H α) (x : Nat) (t : T α) (as : List Nat) (root : Nat) (r : T α),
    fs.length ≤ n → Null h → At h (On x as) x t as fs root → t ≠ .leaf → PersistentSet.fix t fs = .ok r →
    ∃ h' root', fixLoop h root x as = .ok (h', root') ∧ Tree h' Any root' r ∧ Agree (On x as) h h' ∧
      (On x as root' ∨ h.next ≤ root') := by
  intro n
  induction n with
  | zero =>
    intro fs h x t as root r hl hn a ht e
    have : fs = [] := List.length_eq_zero_iff.1 (by omega)
    subst this
    have sp := a.spine
    cases as with
    | cons b as => exact sp.elim
    | nil =>
      have : root = x := sp
      subst this
      rw [PersistentSet.fix] at e
      cases e
      exact ⟨h, root, by rw [fixLoop], a.focus.tree, Agree.refl _ _, .inl (by simp [On])⟩
  | succ n ih =>
    intro fs h x t as root r hl hn a ht e
    cases fs with
    | nil => 
      have sp := a.spine
      cases as with
      | cons b as => exact sp.elim
      | nil =>
        have : root = x := sp
        subst this
        rw [PersistentSet.fix] at e
        cases e
        exact ⟨h, root, by rw [fixLoop], a.focus.tree, Agree.refl _ _, .inl (by simp [On])⟩
    | cons pf fs =>
      have sp := a.spine
      cases as with
      | nil => exact sp.elim
      | cons p as =>
        have hpred : (h.mem p).red = pf.red := sp.2.2.1
        rw [PersistentSet.fix.eq_def] at e
        rw [fixLoop.eq_def]
        simp only at e ⊢
        rw [hpred]
        by_cases hr : pf.red = true
        · rw [if_pos hr] at e ⊢
          cases fs with
          | nil => exact absurd e (by simp)
          | cons gf fs =>
            cases as with
            | nil => exact sp.2.2.2.2.2.2.elim
            | cons g rest =>
              simp only at e ⊢
              have sg := sp.2.2.2.2.2.2
              have hs : decide (p = (h.mem g).left) = gf.left :=
                side_eq sg.2.2.2.2.1 sg.2.2.2.2.2.1 (by simp [On]) (.inl sp.1)
              rw [hs, sib_red hn sg.2.2.2.2.2.1]
              by_cases hu : gf.sib.isRed = true
              · rw [if_pos hu] at e ⊢
                obtain ⟨a', ag⟩ := recolor_ok a ht hu _ rfl
                have hn' := hn.agree ag (by
                  simp only [On, List.mem_cons, not_or]
                  refine ⟨?_, fun q => sp.1 q.symm, fun q => sg.1 q.symm, ?_⟩
                  · intro q
                    have fo := a.focus
                    cases t with
                    | leaf => exact ht rfl
                    | node c l v r => exact fo.1 q.symm
                  · exact fun q => spine_pos sg.2.2.2.2.2.2 _ q rfl)
                obtain ⟨h', root', e1, t1, ag1, rt⟩ := ih fs _ g _ rest root r (by simp only [List.length_cons] at hl; omega) hn' a'
                  (recolor_ne _ _ _) e
                refine ⟨h', root', e1, t1, ag.trans (ag1.mono (fun i q => .inl ?_)), ?_⟩
                · exact List.mem_cons_of_mem _ (List.mem_cons_of_mem _ q)
                · rcases rt with rt | rt
                  · exact .inl (List.mem_cons_of_mem _ (List.mem_cons_of_mem _ rt))
                  · exact .inr (Nat.le_trans ag.grow rt)
              · rw [if_neg hu] at e ⊢
                cases e
                obtain ⟨p', h', e1, st, ag1⟩ := straighten_ok a ht
                have nd : (g :: rest).Nodup := (List.nodup_cons.1 (List.nodup_cons.1 a.nodup).2).2
                obtain ⟨h2, root', e2, t2, ag2, rt⟩ := rotate_ok st nd
                rw [e1]
                simp only
                have hin : ∀ i, On p' (g :: rest) i → On x (p :: g :: rest) i ∨ h.next ≤ i := by
                  intro i q
                  rcases List.mem_cons.1 q with q | q
                  · have hp' : p' = p ∨ p' = h.next := by
                      have := congrArg Prod.fst e1
                      simp only at this
                      rw [← this]
                      unfold straighten
                      split
                      · exact .inr rfl
                      · exact .inl rfl
                    rcases hp' with hp' | hp'
                    · exact .inl (by rw [q, hp']; simp [On])
                    · exact .inr (by omega)
                  · exact .inl (List.mem_cons_of_mem _ (List.mem_cons_of_mem _ q))
                refine ⟨h2, root', by rw [e2], t2, ag1.trans_new ag2 hin, ?_⟩
                rcases rt with rt | rt
                · exact hin _ rt
                · exact .inr (Nat.le_trans ag1.grow rt)
        · rw [if_neg hr] at e ⊢
          cases e
          exact ⟨h, root, rfl, a.spine.tree a.focus.tree, Agree.refl _ _, .inl (spine_root a.spine)⟩

theorem findLoop_size (cmp : α → α → Int) (v : α) (size : Int) : ∀ (t : T α) (fs : List (Frame α)),
    (PersistentSet.findLoop cmp v size t fs).size = size := by
  intro t
  induction t with
  | leaf => intro fs; rfl
  | node c l x r il ir =>
    intro fs
    rw [PersistentSet.findLoop]
    split
    · exact il _
    · split
      · exact ir _
      · rfl

/-- Adding: the new set has the tree of `PersistentSet.add`, and no node that was there is changed. -/
theorem add_ok (cmp : α → α → Int) (v : α) (rep : Bool) {h : H α} {s : Set} {t : T α} (hn : Null h) (ht : Tree h Any s.root t) {fuel : Nat}
    (hf : t.depth < fuel) {s' : PSet α} (e : PersistentSet.add cmp ⟨t, s.size⟩ v rep = .ok s') :
    ∃ h' r, add cmp fuel h s v rep = some (.ok (h', r)) ∧ Tree h' Any r.root s'.root ∧ r.size = s'.size ∧
      Agree (fun i => h.next ≤ i) h h' := by
  obtain ⟨h1, p, e1, es, f1, f2, f3⟩ := find_ok cmp v hn ht hf
  have hp := hn.pos
  have hn1 : Null h1 := hn.agree f3 (by omega)
  have ef : (PersistentSet.find cmp ⟨t, s.size⟩ v).size = s.size := by
    unfold PersistentSet.find
    exact findLoop_size cmp v s.size t []
  unfold add
  simp only [e1]
  unfold PersistentSet.add at e
  simp only at e
  generalize PersistentSet.find cmp ⟨t, s.size⟩ v = z at e f1 f2 ef
  rw [f1]
  by_cases hz : z.fresh = true
  · -- a new node
    simp only [hz, Bool.not_true, Bool.false_eq_true, if_false] at e ⊢
    unfold PersistentSet.addPath at e
    rw [if_pos hz] at e
    unfold addPath
    rw [f1, if_pos hz]
    cases hfix : PersistentSet.fix (.node true z.l z.v z.r) z.above with
    | error x => rw [hfix] at e; exact absurd e (by simp)
    | ok r =>
      rw [hfix] at e
      simp only at e
      cases e
      have ag2 := setRed_agree h1 p.node true
      have hXn : h.next ≤ p.node := f2.own _ (by simp)
      have fo2 := f2.focus.paint true hXn
      have sp2 : Spine (setRed h1 p.node true) (fun i => h.next ≤ i) p.node p.ancestors z.above p.root := by
        refine f2.spine.agree ag2 (fun i _ q => by
          have : i = p.node := q
          rw [this]; exact hXn) ?_
        intro a ha q
        have : a = p.node := q
        subst this
        exact (List.nodup_cons.1 f2.nodup).1 ha
      have a2 : At (setRed h1 p.node true) (fun i => h.next ≤ i) p.node (.node true z.l z.v z.r) p.ancestors z.above p.root :=
        ⟨f2.nodup, f2.own, fo2, sp2⟩
      have hon : ∀ i, On p.node p.ancestors i → h.next ≤ i := fun i q => f2.own i q
      have ag12 : Agree (fun i => h.next ≤ i) h (setRed h1 p.node true) :=
        f3.trans (ag2.mono (fun i q => .inl (by
          have : i = p.node := q
          rw [this]; exact hXn)))
      obtain ⟨h3, root, e3, t3, ag3, rt⟩ := fixLoop_ok z.above.length z.above _ p.node _ p.ancestors p.root r (Nat.le_refl _)
        (hn.agree ag12 (by omega)) a2.on (fun q => (by cases q)) hfix
      have ag13 : Agree (fun i => h.next ≤ i) h h3 := ag12.trans (ag3.mono (fun i q => .inl (hon i q)))
      have hroot : h.next ≤ root := by
        rcases rt with rt | rt
        · exact hon _ rt
        · exact Nat.le_trans ag12.grow rt
      have hn3 : Null h3 := hn.agree ag13 (by omega)
      refine ⟨setRed h3 root false, ⟨root, p.size + 1⟩, by rw [e3], ?_, ?_, ?_⟩
      · exact t3.paint (by rw [hn3.mem])
      · simp only [es, ef]
      · exact ag13.trans ((setRed_agree h3 root false).mono (fun i q => .inl (by
          have : i = root := q
          rw [this]; exact hroot)))
  · -- the value is there
    have hz' : z.fresh = false := by simpa using hz
    simp only [hz', Bool.not_false, if_true] at e ⊢
    by_cases hr : rep = true
    · rw [if_pos hr] at e
      unfold PersistentSet.Path.replaceWith at e
      simp only [hz', Bool.false_eq_true, if_false] at e
      split at e
      · exact absurd e (by simp)
      · cases e
        rw [if_pos hr]
        have ag2 := setValue_agree h1 p.node (some v)
        have hXn : h.next ≤ p.node := f2.own _ (by simp)
        have hw : ∀ i, i < h1.next → (fun k => k = p.node) i → h.next ≤ i := fun i _ q => by
          have : i = p.node := q
          rw [this]; exact hXn
        refine ⟨_, _, rfl, ?_, ?_, ?_⟩
        · simp only [replaceWith, PersistentSet.Path.root]
          refine Spine.tree (X := fun i => h.next ≤ i) (as := p.ancestors) (x := p.node) ?_ (Focus.tree (X := fun i => h.next ≤ i) ?_)
          · refine f2.spine.agree ag2 hw ?_
            intro a ha q
            have : a = p.node := q
            subst this
            exact (List.nodup_cons.1 f2.nodup).1 ha
          · obtain ⟨q1, q2, q3, q4, q5, q6⟩ := f2.focus
            refine ⟨q1, q2, ?_, ?_, ?_, ?_⟩
            · rw [setValue_mem, if_pos rfl]; exact q3
            · rw [setValue_mem, if_pos rfl]
            · rw [setValue_mem, if_pos rfl]; exact q5.agree ag2 hw
            · rw [setValue_mem, if_pos rfl]; exact q6.agree ag2 hw
        · simp only [replaceWith, PersistentSet.Path.root, es, ef]
        · exact f3.trans (ag2.mono (fun i q => .inl (by
            have : i = p.node := q
            rw [this]; exact hXn)))
    · rw [if_neg hr] at e
      cases e
      rw [if_neg hr]
      exact ⟨h1, s, rfl, (ht.below.agree f3 (fun i _ q => q)).mono (fun _ q => q.elim), rfl, f3⟩

/-! ### Removing -/

theorem Focus.keep {h h' : H α} {W X Y : Nat → Prop} (ag : Agree W h h') (hw : ∀ i, i < h.next → W i → X i)
    (hy : ∀ i, i < h.next → Y i → X i) {x : Nat} {t : T α} (f : Focus h X x t) (hx : x ≠ 0 → ¬ W x) (hxy : ¬ Y x) : Tree h' Y x t := by
  cases t with
  | leaf => exact f
  | node c l v r =>
    obtain ⟨x1, x2, x3, x4, x5, x6⟩ := f
    have k := ag.keep x x2 (hx x1)
    refine ⟨x1, Nat.lt_of_lt_of_le x2 ag.grow, hxy, ?_, ?_, ?_, ?_⟩
    · rw [k]; exact x3
    · rw [k]; exact x4
    · rw [k]; exact x5.keep ag hw hy
    · rw [k]; exact x6.keep ag hw hy

/-- The nodes of a path and the sibling. -/
def OnS (sib x a : Nat) (as : List Nat) : Nat → Prop := fun i => i = sib ∨ i ∈ x :: a :: as

/-- A path at `x` with the parent `a`, whose other child `sib` is a copy of our own. -/
structure Sib (h : H α) (x : Nat) (t : T α) (a : Nat) (as : List Nat) (f : Frame α) (fs : List (Frame α)) (root sib : Nat) (sc : Bool)
    (sv : α) (near far : T α) : Prop where
  nodup : (x :: a :: as).Nodup
  new : sib ∉ x :: a :: as
  focus : Focus h (OnS sib x a as) x t
  ane : a ≠ 0
  alt : a < h.next
  ared : (h.mem a).red = f.red
  avalue : (h.mem a).value = some f.v
  akid : (h.mem a).kid f.left = x
  aother : (h.mem a).kid (!f.left) = sib
  cell : Cell h (OnS sib x a as) sib f.left sc sv near far
  spine : Spine h (OnS sib x a as) a as fs root

/-- The last steps of a round that ends the loop: with a red node `far`. -/
theorem finish_ok {h : H α} {x a root sib : Nat} {t : T α} {as : List Nat} {f : Frame α} {fs : List (Frame α)} {sc : Bool} {sv : α}
    {near far : T α} (z : Sib h x t a as f fs root sib sc sv near far) (hfar : far ≠ .leaf) {h2 h3 : H α}
    (e2 : h2 = setRed (setRed h sib (h.mem a).red) a false)
    (e3 : h3 = setRed (copyKid h2 sib (!f.left)).2 (copyKid h2 sib (!f.left)).1 false) :
    ∃ h' root', replaceTop (rot h3 a (!f.left)).2 root as (!f.left) a (rot h3 a (!f.left)).1 = (h', root') ∧
      Tree h' Any root' (plug (mk f.left f.red (mk f.left false t f.v near) sv (far.paint false)) fs) ∧
      Agree (fun i => i = sib ∨ i = a ∨ i ∈ as) h h' ∧ (root' ∈ as ∨ h.next ≤ root') := by
  obtain ⟨nd, new, fo, a1, a2, a3, a4, a5, a6, ⟨s1, s2, s3, s4, s5, s6⟩, sp⟩ := z
  have hXs : OnS sib x a as sib := .inl rfl
  have hXa : OnS sib x a as a := .inr (by simp)
  simp only [List.nodup_cons, List.mem_cons, not_or] at nd new
  obtain ⟨⟨nxa, nxs⟩, nas, ndr⟩ := nd
  obtain ⟨nsx, nsa, nss⟩ := new
  have has : a ≠ sib := fun q => nsa q.symm
  have hxs : x ≠ sib := fun q => nsx q.symm
  cases hfr : far with
  | leaf => exact absurd hfr hfar
  | node fc fl fv fr =>
  rw [hfr] at s6
  obtain ⟨f1, f2, f3, f4, f5, f6, f7⟩ := s6
  have hfs : (h.mem sib).kid (!f.left) ≠ sib := fun q => f3 (by rw [q]; exact hXs)
  have hfa : (h.mem sib).kid (!f.left) ≠ a := fun q => f3 (by rw [q]; exact hXa)
  -- h2
  have m2 : ∀ j, h2.mem j = if j = a then { h.mem a with red := false } else if j = sib then { h.mem sib with red := f.red } else h.mem j := by
    intro j
    rw [e2, setRed_mem, setRed_mem, setRed_mem, if_neg has, a3]
  have n2 : h2.next = h.next := by rw [e2]; rfl
  have c2 : Agree (fun i => i = sib ∨ i = a) h h2 := by
    rw [e2]
    exact ((setRed_agree h sib _).mono (W' := fun i => i = sib ∨ i = a) (fun i q => .inl (.inl q))).trans_new
      (setRed_agree _ a false) (fun i q => .inl (.inr q))
  -- h3
  have hs2 : sib < h2.next := by omega
  have m3 : ∀ j, h3.mem j = if j = h.next then { h.mem ((h.mem sib).kid (!f.left)) with red := false }
      else if j = sib then ({ h.mem sib with red := f.red } : Node α).withKid (!f.left) h.next
      else if j = a then { h.mem a with red := false } else h.mem j := by
    intro j
    have hns : h.next ≠ sib := by omega
    have k := copyKid_mem h2 sib (!f.left) hs2
    have kk : (h2.mem sib).kid (!f.left) = (h.mem sib).kid (!f.left) := by rw [m2, if_neg nsa, if_pos rfl, red_kid]
    rw [kk, n2, m2 sib, if_neg nsa, if_pos rfl, m2 ((h.mem sib).kid (!f.left)), if_neg hfa, if_neg hfs] at k
    rw [e3, setRed_mem, copyKid_fst, n2, k, if_neg hns, if_pos rfl]
    by_cases q1 : j = h.next
    · simp only [if_pos q1]
    · simp only [if_neg q1, k]
      by_cases q2 : j = sib
      · simp only [if_pos q2]
      · simp only [if_neg q2, m2]
  have n3 : h3.next = h.next + 1 := by rw [e3, setRed_next, copyKid_next, n2]
  have c3 : Agree (fun i => i = sib ∨ i = a) h h3 := by
    refine ⟨by omega, fun i hi hn => ?_⟩
    simp only [not_or] at hn
    rw [m3, if_neg (by omega), if_neg hn.1, if_neg hn.2]
  clear e3 m2 c2 e2
  have ha3 : a < h3.next := by omega
  have m4 := rot_mem h3 a (!f.left) ha3
  have ma3 : h3.mem a = { h.mem a with red := false } := by rw [m3, if_neg (by omega), if_neg has, if_pos rfl]
  have ms3 : h3.mem sib = ({ h.mem sib with red := f.red } : Node α).withKid (!f.left) h.next := by rw [m3, if_neg (by omega), if_pos rfl]
  have hk : (h3.mem a).kid (!f.left) = sib := by rw [ma3, red_kid]; exact a6
  rw [hk, n3, ms3, ma3] at m4
  simp only [Bool.not_not] at m4
  rw [rot_fst, n3]
  have n4 : (rot h3 a (!f.left)).2.next = h.next + 2 := by rw [rot_next, n3]
  have c4 : Agree (fun i => i = sib ∨ i = a) h (rot h3 a (!f.left)).2 := c3.trans_new (rot_agree h3 a (!f.left) ha3) (fun i q => .inl (.inr q))
  generalize (rot h3 a (!f.left)).2 = h4 at m4 n4 c4
  have ma : h4.mem a = ({ h.mem a with red := false } : Node α).withKid (!f.left) ((h.mem sib).kid f.left) := by
    rw [m4, if_pos rfl, withKid_other', red_kid]
  have mn : h4.mem (h.next + 1) = (({ h.mem sib with red := f.red } : Node α).withKid (!f.left) h.next).withKid f.left a := by
    rw [m4, if_neg (by omega), if_pos rfl]
  have mf : h4.mem h.next = { h.mem ((h.mem sib).kid (!f.left)) with red := false } := by
    rw [m4, if_neg (by omega), if_neg (by omega), m3, if_pos rfl]
  have subw : ∀ i, i < h.next → (fun i => i = sib ∨ i = a) i → OnS sib x a as i := by
    intro i _ q
    rcases q with q | q
    · rw [q]; exact hXs
    · rw [q]; exact hXa
  have sub : ∀ i, i < h.next → On a as i → OnS sib x a as i := fun i _ q => .inr (List.mem_cons_of_mem _ q)
  have sub' : ∀ i, i < h.next → (fun i => i ∈ as) i → OnS sib x a as i := fun i _ q =>
    .inr (List.mem_cons_of_mem _ (List.mem_cons_of_mem _ q))
  have lts : ∀ i ∈ as, i < h.next := spine_lt sp
  have sp4 : Spine h4 (On a as) a as fs root := by
    refine sp.keep c4 subw sub ?_
    intro b hb q
    rcases q with q | q
    · exact nss (q ▸ hb)
    · exact nas (q ▸ hb)
  have tn : Tree h4 (fun i => i ∈ as) (h.next + 1) (mk f.left f.red (mk f.left false t f.v near) sv ((T.node fc fl fv fr).paint false)) := by
    refine Tree.mk (by omega) (by omega) (fun q => absurd (lts _ q) (by omega)) ?_ ?_ ?_ ?_
    · rw [mn, withKid_red, withKid_red]
    · rw [mn, withKid_value, withKid_value]; exact s4
    · rw [mn, withKid_kid]
      refine Tree.mk a1 (by omega) nas ?_ ?_ ?_ ?_
      · rw [ma, withKid_red]
      · rw [ma, withKid_value]; exact a4
      · rw [ma, withKid_other', red_kid, a5]
        refine fo.keep c4 subw sub' ?_ nxs
        intro _ q
        rcases q with q | q
        · exact hxs q
        · exact nxa q
      · rw [ma, withKid_kid]; exact s5.keep c4 subw sub'
    · rw [mn, withKid_other, withKid_kid]
      refine ⟨by omega, by omega, fun q => absurd (lts _ q) (by omega), ?_, ?_, ?_, ?_⟩
      · rw [mf]
      · rw [mf]; exact f5
      · rw [mf]; exact f6.keep c4 subw sub'
      · rw [mf]; exact f7.keep c4 subw sub'
  obtain ⟨h', root', e, sp5, ag5⟩ := replaceTop_ok (n := h.next + 1) (!f.left) sp4 ndr (fun a ha => List.mem_cons_of_mem _ ha) (by simp [On]) a1
  have hhd : ∀ i, as.head? = some i → i ∈ as := fun i q => List.mem_of_mem_head? q
  refine ⟨h', root', e, sp5.tree ((tn.agree ag5 (fun i _ q => hhd i q)).mono (fun _ q => q.elim)), ?_, ?_⟩
  · refine (c4.mono (W' := fun i => i = sib ∨ i = a ∨ i ∈ as) (fun i q => ?_)).trans_new ag5 (fun i q => .inl (.inr (.inr (hhd i q))))
    rcases q with q | q
    · exact .inl (.inl q)
    · exact .inl (.inr (.inl q))
  · rcases List.mem_cons.1 (spine_root sp5) with q | q
    · exact .inr (by omega)
    · exact .inl q

theorem withKid_withKid (n : Node α) (s : Bool) (j k : Nat) : (n.withKid s j).withKid s k = n.withKid s k := by
  cases s <;> rfl

theorem pick {h : H α} {X : Nat → Prop} {n : Node α} {l r : T α} (hl : Tree h X n.left l) (hr : Tree h X n.right r) (s : Bool) :
    Tree h X (n.kid s) (if s then l else r) := by
  cases s
  · exact hr
  · exact hl

theorem pick' {h : H α} {X : Nat → Prop} {n : Node α} {l r : T α} (hl : Tree h X n.left l) (hr : Tree h X n.right r) (s : Bool) :
    Tree h X (n.kid (!s)) (if s then r else l) := by
  cases s
  · exact hl
  · exact hr

/-- The node near to the child is rotated above the sibling. -/
theorem turnSibling_ok {h : H α} {x a root sib : Nat} {t : T α} {as : List Nat} {f : Frame α} {fs : List (Frame α)} {sc : Bool} {sv : α}
    {nc : Bool} {nl : T α} {nv : α} {nr far : T α} (hn : Null h) (z : Sib h x t a as f fs root sib sc sv (.node nc nl nv nr) far)
    (hfar : far.isRed = false) :
    ∃ sib' h', turnSibling h a sib f.left = (sib', h') ∧ h.next ≤ sib' ∧
      Sib h' x t a as f fs root sib' false nv (if f.left then nl else nr) (mk f.left true (if f.left then nr else nl) sv far) ∧
      Agree (fun i => i = sib ∨ i = a) h h' := by
  obtain ⟨nd, new, fo, a1, a2, a3, a4, a5, a6, ⟨s1, s2, s3, s4, s5, s6⟩, sp⟩ := z
  have hXs : OnS sib x a as sib := .inl rfl
  have hXa : OnS sib x a as a := .inr (by simp)
  have nd0 := nd
  have new0 := new
  simp only [List.nodup_cons, List.mem_cons, not_or] at nd new
  obtain ⟨⟨nxa, nxs⟩, nas, ndr⟩ := nd
  obtain ⟨nsx, nsa, nss⟩ := new
  have has : a ≠ sib := fun q => nsa q.symm
  have hxs : x ≠ sib := fun q => nsx q.symm
  have hfr : (h.mem ((h.mem sib).kid (!f.left))).red = false := by rw [sib_red hn s6]; exact hfar
  obtain ⟨f1, f2, f3, f4, f5, f6, f7⟩ := s5
  have hfs : (h.mem sib).kid f.left ≠ sib := fun q => f3 (by rw [q]; exact hXs)
  have hfa : (h.mem sib).kid f.left ≠ a := fun q => f3 (by rw [q]; exact hXa)
  obtain ⟨h1, e1⟩ : ∃ h1, h1 = setRed (setRed (copyKid h sib f.left).2 (copyKid h sib f.left).1 false) sib true := ⟨_, rfl⟩
  have hns : h.next ≠ sib := by omega
  have hsn : sib ≠ h.next := by omega
  have m1 : ∀ j, h1.mem j = if j = sib then { ((h.mem sib).withKid f.left h.next) with red := true }
      else if j = h.next then { h.mem ((h.mem sib).kid f.left) with red := false } else h.mem j := by
    intro j
    rw [e1]
    simp only [setRed_mem, copyKid_fst, copyKid_mem h sib f.left s2, if_neg hns, if_neg hsn, if_true]
    by_cases q1 : j = sib
    · simp only [if_pos q1]
    · simp only [if_neg q1]
      by_cases q2 : j = h.next
      · simp only [if_pos q2]
      · simp only [if_neg q2]
  have n1 : h1.next = h.next + 1 := by rw [e1]; rfl
  have e : turnSibling h a sib f.left = ((rot h1 sib f.left).1, setKid (rot h1 sib f.left).2 a (!f.left) (rot h1 sib f.left).1) := by
    unfold turnSibling
    rw [hfr, e1]
    rfl
  clear e1
  have hs1 : sib < h1.next := by omega
  have m2 := rot_mem h1 sib f.left hs1
  have hk : (h1.mem sib).kid f.left = h.next := by rw [m1, if_pos rfl, red_kid, withKid_kid]
  have mn1 : h1.mem h.next = { h.mem ((h.mem sib).kid f.left) with red := false } := by rw [m1, if_neg hns, if_pos rfl]
  rw [hk, mn1, n1, m1 sib, if_pos rfl, red_kid] at m2
  rw [rot_fst, n1] at e
  have n2 : (rot h1 sib f.left).2.next = h.next + 2 := by rw [rot_next, n1]
  generalize (rot h1 sib f.left).2 = h2 at e m2 n2
  have m3 : ∀ j, (setKid h2 a (!f.left) (h.next + 1)).mem j = if j = a then (h2.mem a).withKid (!f.left) (h.next + 1) else h2.mem j :=
    fun j => rfl
  have n3 : (setKid h2 a (!f.left) (h.next + 1)).next = h.next + 2 := n2
  generalize setKid h2 a (!f.left) (h.next + 1) = h3 at e m3 n3
  have ma : h3.mem a = (h.mem a).withKid (!f.left) (h.next + 1) := by
    rw [m3, if_pos rfl, m2, if_neg has, if_neg (by omega), m1, if_neg has, if_neg (by omega)]
  have ms : h3.mem sib = ({ ((h.mem sib).withKid f.left h.next) with red := true } : Node α).withKid f.left
      ((h.mem ((h.mem sib).kid f.left)).kid (!f.left)) := by
    rw [m3, if_neg nsa, m2, if_pos rfl]
  have mn : h3.mem (h.next + 1) = ({ h.mem ((h.mem sib).kid f.left) with red := false } : Node α).withKid (!f.left) sib := by
    rw [m3, if_neg (by omega), m2, if_neg (by omega), if_pos rfl]
  have ag : Agree (fun i => i = sib ∨ i = a) h h3 := by
    refine ⟨by omega, fun i hi hq => ?_⟩
    simp only [not_or] at hq
    rw [m3, if_neg hq.2, m2, if_neg hq.1, if_neg (by omega), m1, if_neg hq.1, if_neg (by omega)]
  have subw : ∀ i, i < h.next → (fun i => i = sib ∨ i = a) i → OnS sib x a as i := by
    intro i _ q
    rcases q with q | q
    · rw [q]; exact hXs
    · rw [q]; exact hXa
  have sub : ∀ i, i < h.next → OnS (h.next + 1) x a as i → OnS sib x a as i := by
    intro i hi q
    rcases q with q | q
    · omega
    · exact .inr q
  have lts : ∀ i ∈ as, i < h.next := spine_lt sp
  have hxlt : x < h.next := by
    cases t with
    | leaf =>
      have : x = 0 := fo
      have := hn.pos
      omega
    | node _ _ _ _ => exact fo.2.1
  refine ⟨h.next + 1, h3, e, by omega, ⟨nd0, ?_, ?_, a1, by omega, ?_, ?_, ?_, ?_, ⟨by omega, by omega, ?_, ?_, ?_, ?_⟩, ?_⟩, ag⟩
  · simp only [List.mem_cons, not_or]
    exact ⟨by omega, by omega, fun q => absurd (lts _ q) (by omega)⟩
  · cases t with
    | leaf => exact fo
    | node c l v r =>
      obtain ⟨x1, x2, x3, x4, x5, x6⟩ := fo
      have hx : h3.mem x = h.mem x := ag.keep x x2 (fun q => by
        rcases q with q | q
        · exact hxs q
        · exact nxa q)
      refine ⟨x1, by omega, ?_, ?_, ?_, ?_⟩
      · rw [hx]; exact x3
      · rw [hx]; exact x4
      · rw [hx]; exact x5.keep ag subw sub
      · rw [hx]; exact x6.keep ag subw sub
  · rw [ma, withKid_red]; exact a3
  · rw [ma, withKid_value]; exact a4
  · rw [ma, withKid_other']; exact a5
  · rw [ma, withKid_kid]
  · rw [mn, withKid_red]
  · rw [mn, withKid_value]; exact f5
  · rw [mn, withKid_other', red_kid]
    exact pick (f6.keep ag subw sub) (f7.keep ag subw sub) _
  · rw [mn, withKid_kid]
    refine Tree.mk s1 (by omega) ?_ ?_ ?_ ?_ ?_
    · rintro (q | q)
      · omega
      · exact new0 q
    · rw [ms, withKid_red]
    · rw [ms, withKid_value, ← s4]; exact withKid_value _ _ _
    · rw [ms, withKid_kid]
      exact pick' (f6.keep ag subw sub) (f7.keep ag subw sub) _
    · rw [ms, withKid_other, red_kid, withKid_other]; exact s6.keep ag subw sub
  · refine sp.keep ag subw sub ?_
    intro b hb q
    rcases q with q | q
    · exact nss (q ▸ hb)
    · exact nas (q ▸ hb)

/-- A round with a black sibling. -/
theorem blackSibling_ok {h : H α} {x a root sib : Nat} {t : T α} {as : List Nat} {f : Frame α} {fs : List (Frame α)} {sc : Bool} {sv : α}
    {near far : T α} (hn : Null h) (z : Sib h x t a as f fs root sib sc sv near far) :
    match PersistentSet.blackSibling t f near sv far with
    | .goOn t' => ∃ h', blackSibling h root a as sib f.left = (h', root, true) ∧ At h' (On a as) a t' as fs root ∧
        Agree (fun i => i = sib ∨ i = a ∨ i ∈ as) h h'
    | .done t' => ∃ h' root', blackSibling h root a as sib f.left = (h', root', false) ∧ Tree h' Any root' (plug t' fs) ∧
        Agree (fun i => i = sib ∨ i = a ∨ i ∈ as) h h' ∧ (root' ∈ as ∨ h.next ≤ root') := by
  have hkids : ((h.mem (h.mem sib).left).red || (h.mem (h.mem sib).right).red) = (near.isRed || far.isRed) := by
    have q1 := sib_red hn z.cell.kid
    have q2 := sib_red hn z.cell.other
    rw [← q1, ← q2]
    cases f.left
    · simp only [Node.kid, Bool.not_false, if_true, Bool.false_eq_true, if_false]; rw [Bool.or_comm]
    · rfl
  unfold PersistentSet.blackSibling
  by_cases hr : (near.isRed || far.isRed) = true
  · rw [hr]
    simp only [Bool.not_true, Bool.false_eq_true, if_false]
    have e0 : ∀ sib1 h1, turnSibling h a sib f.left = (sib1, h1) →
        blackSibling h root a as sib f.left =
          ((replaceTop (rot (setRed (copyKid (setRed (setRed h1 sib1 (h1.mem a).red) a false) sib1 (!f.left)).2
              (copyKid (setRed (setRed h1 sib1 (h1.mem a).red) a false) sib1 (!f.left)).1 false) a (!f.left)).2 root as (!f.left) a
            (rot (setRed (copyKid (setRed (setRed h1 sib1 (h1.mem a).red) a false) sib1 (!f.left)).2
              (copyKid (setRed (setRed h1 sib1 (h1.mem a).red) a false) sib1 (!f.left)).1 false) a (!f.left)).1).1,
           (replaceTop (rot (setRed (copyKid (setRed (setRed h1 sib1 (h1.mem a).red) a false) sib1 (!f.left)).2
              (copyKid (setRed (setRed h1 sib1 (h1.mem a).red) a false) sib1 (!f.left)).1 false) a (!f.left)).2 root as (!f.left) a
            (rot (setRed (copyKid (setRed (setRed h1 sib1 (h1.mem a).red) a false) sib1 (!f.left)).2
              (copyKid (setRed (setRed h1 sib1 (h1.mem a).red) a false) sib1 (!f.left)).1 false) a (!f.left)).1).2, false) := by
      intro sib1 h1 e
      unfold blackSibling
      rw [hkids, if_pos hr]
      simp only [e]
    by_cases hf : far.isRed = true
    · simp only [hf, Bool.not_true, Bool.false_eq_true, if_false]
      have e : turnSibling h a sib f.left = (sib, h) := by
        unfold turnSibling
        rw [sib_red hn z.cell.other, if_pos hf]
      have hfl : far ≠ .leaf := by rintro rfl; exact absurd hf (by simp [PersistentSet.T.isRed])
      obtain ⟨h', root', e1, t1, g1, r1⟩ := finish_ok z hfl rfl rfl
      exact ⟨h', root', by rw [e0 _ _ e, e1], t1, g1, r1⟩
    · have hf' : far.isRed = false := by simpa using hf
      simp only [hf', Bool.not_false, if_true]
      cases near with
      | leaf => rw [hf'] at hr; exact absurd hr (by simp [PersistentSet.T.isRed])
      | node nc nl nv nr =>
        simp only
        obtain ⟨sib1, h1, e, hs1, z1, g1⟩ := turnSibling_ok hn z hf'
        have hfl : mk f.left true (if f.left then nr else nl) sv far ≠ .leaf := by
          unfold PersistentSet.mk
          split <;> exact fun q => (by cases q)
        obtain ⟨h', root', e1, t1, g2, r1⟩ := finish_ok z1 hfl rfl rfl
        refine ⟨h', root', by rw [e0 _ _ e, e1], t1, ?_, ?_⟩
        · refine (g1.mono (W' := fun i => i = sib ∨ i = a ∨ i ∈ as) ?_).trans_new g2 ?_
          · rintro i (q | q)
            · exact .inl (.inl q)
            · exact .inl (.inr (.inl q))
          · rintro i (q | q | q)
            · exact .inr (by omega)
            · exact .inl (.inr (.inl q))
            · exact .inl (.inr (.inr q))
        · rcases r1 with r1 | r1
          · exact .inl r1
          · exact .inr (Nat.le_trans g1.grow r1)
  · have hr' : (near.isRed || far.isRed) = false := by simpa using hr
    simp only [hr', Bool.not_false, if_true]
    obtain ⟨nd, new, fo, a1, a2, a3, a4, a5, a6, ⟨s1, s2, s3, s4, s5, s6⟩, sp⟩ := z
    have hXs : OnS sib x a as sib := .inl rfl
    simp only [List.nodup_cons, List.mem_cons, not_or] at nd new
    obtain ⟨⟨nxa, nxs⟩, nas, ndr⟩ := nd
    obtain ⟨nsx, nsa, nss⟩ := new
    have ag := setRed_agree h sib true
    have has : a ≠ sib := fun q => nsa q.symm
    have hma : (setRed h sib true).mem a = h.mem a := by rw [setRed_mem, if_neg has]
    have hms : (setRed h sib true).mem sib = { h.mem sib with red := true } := by rw [setRed_mem, if_pos rfl]
    have subw : ∀ i, i < h.next → (fun k => k = sib) i → OnS sib x a as i := fun i _ q => .inl q
    have sub : ∀ i, i < h.next → On a as i → OnS sib x a as i := fun i _ q => .inr (List.mem_cons_of_mem _ q)
    refine ⟨setRed h sib true, ?_, ⟨List.nodup_cons.2 ⟨nas, ndr⟩, fun _ q => q, ?_, ?_⟩, ag.mono (fun i q => .inl (.inl q))⟩
    · unfold blackSibling
      rw [hkids, hr']
      rfl
    · refine Focus.mk a1 a2 ?_ ?_ ?_ ?_
      · rw [hma]; exact a3
      · rw [hma]; exact a4
      · rw [hma, a5]
        refine fo.keep ag subw sub (fun _ q => nsx q.symm) ?_
        simp only [On, List.mem_cons, not_or]
        exact ⟨nxa, nxs⟩
      · rw [hma, a6]
        refine Tree.mk s1 s2 ?_ ?_ ?_ ?_ ?_
        · simp only [On, List.mem_cons, not_or]; exact ⟨nsa, nss⟩
        · rw [hms]
        · rw [hms]; exact s4
        · rw [hms, red_kid]; exact s5.keep ag subw sub
        · rw [hms, red_kid]; exact s6.keep ag subw sub
    · exact sp.keep ag subw sub (fun b hb q => nss (q ▸ hb))

theorem Focus.lt {h : H α} {X : Nat → Prop} {x : Nat} {t : T α} (hn : Null h) (f : Focus h X x t) : x < h.next := by
  cases t with
  | leaf =>
    have : x = 0 := f
    have := hn.pos
    omega
  | node _ _ _ _ => exact f.2.1

/-- The sibling is copied. -/
theorem copySib_ok {h : H α} {x a root : Nat} {t : T α} {as : List Nat} {f : Frame α} {fs : List (Frame α)} {sc : Bool} {sl : T α} {sv : α}
    {sr : T α} (hn : Null h) (z : At h (On x (a :: as)) x t (a :: as) (f :: fs) root) (hs : f.sib = .node sc sl sv sr) :
    Sib (copyKid h a (!f.left)).2 x t a as f fs root h.next sc sv (if f.left then sl else sr) (if f.left then sr else sl) ∧
      Agree (fun i => i = a) h (copyKid h a (!f.left)).2 := by
  obtain ⟨nd, own, fo, a1, a2, a3, a4, a5, a6, sp⟩ := z
  have hXa : On x (a :: as) a := by simp [On]
  have ag := copyKid_agree h a (!f.left) a2
  have m := copyKid_mem h a (!f.left) a2
  have n1 : (copyKid h a (!f.left)).2.next = h.next + 1 := rfl
  generalize (copyKid h a (!f.left)).2 = h1 at ag m n1
  have hxlt := fo.lt hn
  have lts := spine_lt sp
  rw [hs] at a6
  obtain ⟨f1, f2, f3, f4, f5, f6, f7⟩ := a6
  have ma : h1.mem a = (h.mem a).withKid (!f.left) h.next := by rw [m, if_pos rfl]
  have mn : h1.mem h.next = h.mem ((h.mem a).kid (!f.left)) := by rw [m, if_neg (by omega), if_pos rfl]
  have subw : ∀ i, i < h.next → (fun k => k = a) i → On x (a :: as) i := fun i _ q => by
    have : i = a := q
    rw [this]; exact hXa
  have sub : ∀ i, i < h.next → OnS h.next x a as i → On x (a :: as) i := by
    rintro i hi (q | q)
    · omega
    · exact q
  have nd' := nd
  simp only [List.nodup_cons, List.mem_cons, not_or] at nd
  obtain ⟨⟨nxa, nxs⟩, nas, ndr⟩ := nd
  refine ⟨⟨nd', ?_, ?_, a1, by omega, ?_, ?_, ?_, ?_, ⟨by omega, by omega, ?_, ?_, ?_, ?_⟩, ?_⟩, ag⟩
  · simp only [List.mem_cons, not_or]
    exact ⟨by omega, by omega, fun q => absurd (lts _ q) (by omega)⟩
  · cases t with
    | leaf => exact fo
    | node c l v r =>
      obtain ⟨x1, x2, x3, x4, x5, x6⟩ := fo
      have hx : h1.mem x = h.mem x := ag.keep x x2 nxa
      refine ⟨x1, by omega, ?_, ?_, ?_, ?_⟩
      · rw [hx]; exact x3
      · rw [hx]; exact x4
      · rw [hx]; exact x5.keep ag subw sub
      · rw [hx]; exact x6.keep ag subw sub
  · rw [ma, withKid_red]; exact a3
  · rw [ma, withKid_value]; exact a4
  · rw [ma, withKid_other']; exact a5
  · rw [ma, withKid_kid]
  · rw [mn]; exact f4
  · rw [mn]; exact f5
  · rw [mn]; exact pick (f6.keep ag subw sub) (f7.keep ag subw sub) _
  · rw [mn]; exact pick' (f6.keep ag subw sub) (f7.keep ag subw sub) _
  · refine sp.keep ag subw sub ?_
    intro b hb q
    exact nas (q ▸ hb)

/-- A red sibling is rotated above the parent. -/
theorem redSibling_ok {h : H α} {x a root sib : Nat} {t : T α} {as : List Nat} {f : Frame α} {fs : List (Frame α)} {sc : Bool} {sv : α}
    {near far : T α} (hn : Null h) (z : Sib h x t a as f fs root sib sc sv near far) {h1 : H α}
    (e1 : h1 = setRed (setRed h sib false) a true) :
    ∃ h' root', replaceTop (rot h1 a (!f.left)).2 root as (!f.left) a (rot h1 a (!f.left)).1 = (h', root') ∧
      At h' (On x (a :: h.next :: as)) x t (a :: h.next :: as)
        (⟨f.left, true, f.v, near⟩ :: ⟨f.left, false, sv, far⟩ :: fs) root' ∧ Agree (fun i => i = sib ∨ i = a ∨ i ∈ as) h h' := by
  obtain ⟨nd, new, fo, a1, a2, a3, a4, a5, a6, ⟨s1, s2, s3, s4, s5, s6⟩, sp⟩ := z
  have hXs : OnS sib x a as sib := .inl rfl
  have hXa : OnS sib x a as a := .inr (by simp)
  have hxlt := fo.lt hn
  simp only [List.nodup_cons, List.mem_cons, not_or] at nd new
  obtain ⟨⟨nxa, nxs⟩, nas, ndr⟩ := nd
  obtain ⟨nsx, nsa, nss⟩ := new
  have has : a ≠ sib := fun q => nsa q.symm
  have hxs : x ≠ sib := fun q => nsx q.symm
  have m1 : ∀ j, h1.mem j = if j = a then { h.mem a with red := true } else if j = sib then { h.mem sib with red := false } else h.mem j := by
    intro j
    rw [e1, setRed_mem, setRed_mem, setRed_mem, if_neg has]
  have n1 : h1.next = h.next := by rw [e1]; rfl
  clear e1
  have ha1 : a < h1.next := by omega
  have m2 := rot_mem h1 a (!f.left) ha1
  have ma1 : h1.mem a = { h.mem a with red := true } := by rw [m1, if_pos rfl]
  have ms1 : h1.mem sib = { h.mem sib with red := false } := by rw [m1, if_neg nsa, if_pos rfl]
  have hk : (h1.mem a).kid (!f.left) = sib := by rw [ma1, red_kid]; exact a6
  rw [hk, n1, ms1, ma1] at m2
  simp only [Bool.not_not, red_kid] at m2
  rw [rot_fst, n1]
  have n2 : (rot h1 a (!f.left)).2.next = h.next + 1 := by rw [rot_next, n1]
  generalize (rot h1 a (!f.left)).2 = h2 at m2 n2
  have ag : Agree (fun i => i = sib ∨ i = a) h h2 := by
    refine ⟨by omega, fun i hi hq => ?_⟩
    simp only [not_or] at hq
    rw [m2, if_neg hq.2, if_neg (by omega), m1, if_neg hq.2, if_neg hq.1]
  have ma : h2.mem a = ({ h.mem a with red := true } : Node α).withKid (!f.left) ((h.mem sib).kid f.left) := by rw [m2, if_pos rfl]
  have mn : h2.mem h.next = ({ h.mem sib with red := false } : Node α).withKid f.left a := by rw [m2, if_neg (by omega), if_pos rfl]
  have subw : ∀ i, i < h.next → (fun i => i = sib ∨ i = a) i → OnS sib x a as i := by
    intro i _ q
    rcases q with q | q
    · rw [q]; exact hXs
    · rw [q]; exact hXa
  have lts := spine_lt sp
  -- the nodes of the new path
  have sub : ∀ i, i < h.next → On x (a :: h.next :: as) i → OnS sib x a as i := by
    intro i hi q
    simp only [On, List.mem_cons] at q
    rcases q with q | q | q | q
    · exact .inr (by simp [q])
    · exact .inr (by simp [q])
    · omega
    · exact .inr (by simp [q])
  have sp2 : Spine h2 (On x (a :: h.next :: as)) a as fs root := by
    refine sp.keep ag subw sub ?_
    rintro b hb (q | q)
    · exact nss (q ▸ hb)
    · exact nas (q ▸ hb)
  obtain ⟨h', root', e, sp3, ag3⟩ := replaceTop_ok (n := h.next) (!f.left) sp2 ndr
    (fun b hb => by simp [On, hb]) (by simp [On]) a1
  have hhd : ∀ i, as.head? = some i → i ∈ as := fun i q => List.mem_of_mem_head? q
  have hw3 : ∀ i, i < h2.next → as.head? = some i → On x (a :: h.next :: as) i := fun i _ q => by
    simp [On, hhd i q]
  have ka : h'.mem a = h2.mem a := ag3.keep a (by omega) (fun q => nas (hhd _ q))
  have kn : h'.mem h.next = h2.mem h.next := ag3.keep h.next (by omega) (fun q => absurd (lts _ (hhd _ q)) (by omega))
  have n3 := ag3.grow
  have keep : ∀ {i : Nat} {u : T α}, Tree h (OnS sib x a as) i u → Tree h' (On x (a :: h.next :: as)) i u := fun hu =>
    (hu.keep ag subw sub).agree ag3 hw3
  have hxn : x ∉ as := nxs
  refine ⟨h', root', e, ⟨?_, fun _ q => q, ?_, ?_⟩, ?_⟩
  · simp only [List.nodup_cons, List.mem_cons, not_or]
    exact ⟨⟨nxa, by omega, nxs⟩, ⟨by omega, nas⟩, fun q => absurd (lts _ q) (by omega), ndr⟩
  · cases t with
    | leaf => exact fo
    | node c l v r =>
      obtain ⟨x1, x2, x3, x4, x5, x6⟩ := fo
      have hx : h'.mem x = h.mem x := (ag3.keep x (by omega) (fun q => nxs (hhd _ q))).trans (ag.keep x x2 (fun q => by
        rcases q with q | q
        · exact hxs q
        · exact nxa q))
      refine ⟨x1, by omega, ?_, ?_, ?_, ?_⟩
      · rw [hx]; exact x3
      · rw [hx]; exact x4
      · rw [hx]; exact keep x5
      · rw [hx]; exact keep x6
  · refine ⟨a1, by omega, ?_, ?_, ?_, ?_, ⟨by omega, by omega, ?_, ?_, ?_, ?_, sp3⟩⟩
    · rw [ka, ma, withKid_red]
    · rw [ka, ma, withKid_value]; exact a4
    · rw [ka, ma, withKid_other', red_kid]; exact a5
    · rw [ka, ma, withKid_kid]; exact keep s5
    · rw [kn, mn, withKid_red]
    · rw [kn, mn, withKid_value]; exact s4
    · rw [kn, mn, withKid_kid]
    · rw [kn, mn, withKid_other, red_kid]; exact keep s6
  · refine (ag.mono (W' := fun i => i = sib ∨ i = a ∨ i ∈ as) (fun i q => ?_)).trans_new ag3 (fun i q => .inl (.inr (.inr (hhd i q))))
    rcases q with q | q
    · exact .inl (.inl q)
    · exact .inl (.inr (.inl q))

theorem goOn_red {t t' : T α} {f : Frame α} {near far : T α} {sv : α}
    (e : PersistentSet.blackSibling t f near sv far = .goOn t') (hf : f.red = true) : t'.isRed = true := by
  unfold PersistentSet.blackSibling at e
  split at e
  · cases e
    unfold PersistentSet.mk
    rw [hf]
    cases f.left <;> rfl
  · rename_i c1
    split at e
    · rename_i c2
      split at e
      · simp only [Bool.not_eq_true', Bool.not_eq_false] at c1 c2
        rw [c2] at c1
        exact absurd c1 (by simp [PersistentSet.T.isRed])
      · cases e
    · cases e

/-- The nodes of a path that are nodes. -/
def Own (x : Nat) (as : List Nat) : Nat → Prop := fun i => i ≠ 0 ∧ i ∈ x :: as

theorem paint_agree {h : H α} {W : Nat → Prop} (hn : Null h) (x : Nat) (hx : x ≠ 0 → W x) : Agree W h (setRed h x false) := by
  refine ⟨Nat.le_refl _, fun i _ hi => ?_⟩
  rw [setRed_mem]
  split
  · rename_i q
    subst q
    by_cases h0 : i = 0
    · subst h0; rw [hn.mem]
    · exact absurd (hx h0) hi
  · rfl

/-- The end of the loop at a node: it gets black. -/
theorem delEnd_ok {h : H α} {x root : Nat} {t : T α} {as : List Nat} {fs : List (Frame α)} (z : At h (On x as) x t as fs root) :
    Tree (setRed h x false) Any root (plug (t.paint false) fs) := by
  have ag := setRed_agree h x false
  refine Spine.tree (X := On x as) (as := as) (x := x) ?_ (z.focus.paint false (by simp [On])).tree
  refine z.spine.agree ag (fun i _ q => by
    have : i = x := q
    rw [this]; simp [On]) ?_
  intro a ha q
  have : a = x := q
  subst this
  exact (List.nodup_cons.1 z.nodup).1 ha

theorem delLoop_ok : ∀ (fs : List (Frame α)) (fuel : Nat) (h : H α) (x : Nat) (t : T α) (as : List Nat) (root : Nat) (r : T α),
    fs.length + 2 ≤ fuel → Null h → At h (On x as) x t as fs root → PersistentSet.delLoop t fs = .ok r →
    ∃ h' root' child, delLoop fuel h root x as = some (h', root', child) ∧ Tree (setRed h' child false) Any root' r ∧
      Agree (Own x as) h (setRed h' child false) := by
  intro fs
  induction fs with
  | nil =>
    intro fuel h x t as root r hf hn z e
    obtain ⟨k, rfl⟩ : ∃ k, fuel = k + 1 := ⟨fuel - 1, by simp only [List.length_nil] at hf; omega⟩
    have sp := z.spine
    cases as with
    | cons b as => exact sp.elim
    | nil =>
      rw [PersistentSet.delLoop] at e
      cases e
      exact ⟨h, root, x, by rw [delLoop], delEnd_ok z, paint_agree hn x (fun q => ⟨q, by simp⟩)⟩
  | cons f fs ih =>
    intro fuel h x t as root r hf hn z e
    obtain ⟨k, rfl⟩ : ∃ k, fuel = k + 1 := ⟨fuel - 1, by simp only [List.length_cons] at hf; omega⟩
    have sp := z.spine
    cases as with
    | nil => exact sp.elim
    | cons a as =>
      rw [delLoop]
      rw [PersistentSet.delLoop.eq_def] at e
      simp only at e
      have htr : (h.mem x).red = t.isRed := sib_red hn z.focus.tree
      rw [htr]
      by_cases hr : t.isRed = true
      · rw [if_pos hr] at e ⊢
        cases e
        exact ⟨h, root, x, rfl, delEnd_ok z, paint_agree hn x (fun q => ⟨q, by simp⟩)⟩
      · rw [if_neg hr] at e ⊢
        cases hs : f.sib with
        | leaf => rw [hs] at e; exact absurd e (by simp)
        | node sc sl sv sr =>
          rw [hs] at e
          simp only at e
          have hside : decide (x = (h.mem a).left) = f.left :=
            side_eq sp.2.2.2.2.1 sp.2.2.2.2.2.1 (by simp [On]) (.inr (by rw [hs]; exact fun q => (by cases q)))
          rw [hside]
          obtain ⟨z1, g1⟩ := copySib_ok hn z hs
          have hn1 : Null (copyKid h a (!f.left)).2 := hn.agree g1 (fun q => sp.1 q.symm)
          have g1' : Agree (Own x (a :: as)) h (copyKid h a (!f.left)).2 := g1.mono (fun i q => .inl (by
            have : i = a := q
            rw [this]; exact ⟨sp.1, by simp⟩))
          have hsibred : ((copyKid h a (!f.left)).2.mem h.next).red = sc := z1.cell.red
          simp only [copyKid_fst, hsibred]
          have hnx : (copyKid h a (!f.left)).2.next = h.next + 1 := rfl
          generalize (copyKid h a (!f.left)).2 = h1 at z1 g1 hn1 g1' hsibred hnx
          have wsub : ∀ i, (fun i => i = h.next ∨ i = a ∨ i ∈ as) i → Own x (a :: as) i ∨ h.next ≤ i := by
            rintro i (q | q | q)
            · exact .inr (by omega)
            · exact .inl (by rw [q]; exact ⟨sp.1, by simp⟩)
            · exact .inl ⟨spine_pos z1.spine _ q, by simp [q]⟩
          by_cases hc : sc = true
          · -- a red sibling
            subst hc
            rw [if_pos rfl] at e ⊢
            obtain ⟨h2, root2, e2, z2, g2⟩ := redSibling_ok hn1 z1 rfl
            have hrf : (rot (setRed (setRed h1 h.next false) a true) a (!f.left)).1 = h1.next := rfl
            have hn2 : Null h2 := hn1.agree g2 (by
              have := hn.pos
              rintro (q | q | q)
              · omega
              · exact sp.1 q.symm
              · exact spine_pos z1.spine _ q rfl)
            rw [hrf] at e2
            simp only [hrf]
            rw [e2]
            simp only
            have g2' : Agree (Own x (a :: as)) h h2 := g1'.trans_new g2 wsub
            cases hne : (if f.left then sl else sr) with
            | leaf => rw [hne] at e; exact absurd e (by simp)
            | node nc nl nv nr =>
              rw [hne] at e z2
              simp only at e
              obtain ⟨z3, g3⟩ := copySib_ok hn2 z2 (sc := nc) (sl := nl) (sv := nv) (sr := nr) rfl
              simp only at z3 g3
              have ha2 : a ≠ 0 := sp.1
              have hn3 : Null (copyKid h2 a (!f.left)).2 := hn2.agree g3 (fun q => ha2 q.symm)
              have g3' : Agree (Own x (a :: as)) h (copyKid h2 a (!f.left)).2 := g2'.trans_new g3 (fun i q => .inl (by
                have : i = a := q
                rw [this]; exact ⟨ha2, by simp⟩))
              have hle : h.next ≤ h2.next := g2'.grow
              generalize (copyKid h2 a (!f.left)).2 = h3 at z3 g3 hn3 g3'
              have wsub3 : ∀ i, (fun i => i = h2.next ∨ i = a ∨ i ∈ h1.next :: as) i → Own x (a :: as) i ∨ h.next ≤ i := by
                rintro i (q | q | q)
                · exact .inr (by omega)
                · exact .inl (by rw [q]; exact ⟨ha2, by simp⟩)
                · rcases List.mem_cons.1 q with q | q
                  · exact .inr (by omega)
                  · exact .inl ⟨spine_pos z1.spine _ q, by simp [q]⟩
              have hb := blackSibling_ok hn3 z3
              have hbe : PersistentSet.blackSibling t ⟨f.left, true, f.v, .node nc nl nv nr⟩ (if f.left then nl else nr) nv (if f.left then nr else nl)
                  = PersistentSet.blackSibling t ⟨f.left, true, f.v, .node true sl sv sr⟩ (if f.left then nl else nr) nv (if f.left then nr else nl) := rfl
              rw [hbe] at hb
              cases hbs : PersistentSet.blackSibling t ⟨f.left, true, f.v, .node true sl sv sr⟩ (if f.left then nl else nr) nv (if f.left then nr else nl) with
              | goOn t' =>
                rw [hbs] at hb e
                simp only at hb e
                cases e
                obtain ⟨h4, e4, z4, g4⟩ := hb
                rw [e4]
                simp only
                have g4' := g3'.trans_new g4 wsub3
                have hn4 : Null h4 := hn.agree g4' (fun q => q.1 rfl)
                -- the parent is red: the loop ends
                have hred : (h4.mem a).red = true := by
                  have := sib_red hn4 z4.focus.tree
                  rw [this]
                  exact goOn_red hbs rfl
                obtain ⟨k', rfl⟩ : ∃ k', k = k' + 1 := ⟨k - 1, by simp only [List.length_cons] at hf; omega⟩
                rw [delLoop, if_pos hred]
                refine ⟨h4, root2, a, rfl, delEnd_ok z4, g4'.trans (paint_agree hn4 a (fun q => ⟨q, by simp⟩))⟩
              | done t' =>
                rw [hbs] at hb e
                simp only at hb e
                cases e
                obtain ⟨h4, root4, e4, t4, g4, r4⟩ := hb
                rw [e4]
                simp only
                have g4' := g3'.trans_new g4 wsub3
                have hn4 : Null h4 := hn.agree g4' (fun q => q.1 rfl)
                refine ⟨h4, root4, root4, rfl, t4.paint (by rw [hn4.mem]), ?_⟩
                refine g4'.trans_new (W' := fun i => i = root4) (paint_agree hn4 root4 (fun _ => rfl)) ?_
                intro i q
                have : i = root4 := q
                subst this
                rcases r4 with r4 | r4
                · exact wsub3 _ (.inr (.inr r4))
                · exact .inr (Nat.le_trans g3'.grow r4)
          · -- a black sibling
            have hc' : sc = false := by simpa using hc
            subst hc'
            simp only [Bool.false_eq_true, if_false] at e ⊢
            have hb := blackSibling_ok hn1 z1
            cases hbs : PersistentSet.blackSibling t f (if f.left then sl else sr) sv (if f.left then sr else sl) with
            | goOn t' =>
              rw [hbs] at hb e
              simp only at hb e
              obtain ⟨h4, e4, z4, g4⟩ := hb
              rw [e4]
              simp only
              have g4' := g1'.trans_new g4 wsub
              have hn4 : Null h4 := hn.agree g4' (fun q => q.1 rfl)
              obtain ⟨h5, root5, child, e5, t5, g5⟩ := ih k h4 a t' as root r (by simp only [List.length_cons] at hf; omega) hn4 z4 e
              exact ⟨h5, root5, child, e5, t5, g4'.trans_new g5 (fun i q => .inl ⟨q.1, List.mem_cons_of_mem _ q.2⟩)⟩
            | done t' =>
              rw [hbs] at hb e
              simp only at hb e
              cases e
              obtain ⟨h4, root4, e4, t4, g4, r4⟩ := hb
              rw [e4]
              simp only
              have g4' := g1'.trans_new g4 wsub
              have hn4 : Null h4 := hn.agree g4' (fun q => q.1 rfl)
              refine ⟨h4, root4, root4, rfl, t4.paint (by rw [hn4.mem]), ?_⟩
              refine g4'.trans_new (W' := fun i => i = root4) (paint_agree hn4 root4 (fun _ => rfl)) ?_
              intro i q
              have : i = root4 := q
              subst this
              rcases r4 with r4 | r4
              · exact wsub _ (.inr (.inr r4))
              · exact .inr (Nat.le_trans g1'.grow r4)

/-- The path goes on to a child, which is copied. -/
theorem down_ok {h : H α} {x root : Nat} {as : List Nat} {fs : List (Frame α)} {c : Bool} {v : α} {k k' : T α} (s : Bool)
    (z : At h (On x as) x (mk s c k v k') as fs root) (hk : k ≠ .leaf) :
    At (copyKid h x s).2 (On h.next (x :: as)) h.next k (x :: as) (⟨s, c, v, k'⟩ :: fs) root ∧
      Agree (fun i => i = x) h (copyKid h x s).2 := by
  obtain ⟨nd, own, fo, sp⟩ := z
  have fo' : x ≠ 0 ∧ x < h.next ∧ (h.mem x).red = c ∧ (h.mem x).value = some v ∧ Tree h (On x as) ((h.mem x).kid s) k ∧
      Tree h (On x as) ((h.mem x).kid (!s)) k' := by
    cases s
    · obtain ⟨q1, q2, q3, q4, q5, q6⟩ := fo
      exact ⟨q1, q2, q3, q4, q6, q5⟩
    · exact fo
  obtain ⟨x1, x2, x3, x4, x5, x6⟩ := fo'
  have ag := copyKid_agree h x s x2
  have m := copyKid_mem h x s x2
  have n1 : (copyKid h x s).2.next = h.next + 1 := rfl
  generalize (copyKid h x s).2 = h1 at ag m n1
  have lts := spine_lt sp
  have mx : h1.mem x = (h.mem x).withKid s h.next := by rw [m, if_pos rfl]
  have mn : h1.mem h.next = h.mem ((h.mem x).kid s) := by rw [m, if_neg (by omega), if_pos rfl]
  have subw : ∀ i, i < h.next → (fun k => k = x) i → On x as i := fun i _ q => by
    have : i = x := q
    rw [this]; simp [On]
  have sub : ∀ i, i < h.next → On h.next (x :: as) i → On x as i := by
    intro i hi q
    rcases List.mem_cons.1 q with q | q
    · omega
    · exact q
  refine ⟨⟨List.nodup_cons.2 ⟨?_, nd⟩, fun _ q => q, ?_, ⟨x1, by omega, ?_, ?_, ?_, ?_, ?_⟩⟩, ag⟩
  · simp only [List.mem_cons, not_or]
    exact ⟨by omega, fun q => absurd (lts _ q) (by omega)⟩
  · cases k with
    | leaf => exact absurd rfl hk
    | node kc kl kv kr =>
      obtain ⟨f1, f2, f3, f4, f5, f6, f7⟩ := x5
      refine ⟨by omega, by omega, ?_, ?_, ?_, ?_⟩
      · rw [mn]; exact f4
      · rw [mn]; exact f5
      · rw [mn]; exact f6.keep ag subw sub
      · rw [mn]; exact f7.keep ag subw sub
  · rw [mx, withKid_red]; exact x3
  · rw [mx, withKid_value]; exact x4
  · rw [mx, withKid_kid]
  · rw [mx, withKid_other]; exact x6.keep ag subw sub
  · refine sp.keep ag subw sub ?_
    intro b hb q
    exact (List.nodup_cons.1 nd).1 (q ▸ hb)

theorem kid_leaf {h : H α} {X : Nat → Prop} {i : Nat} {t : T α} (ht : Tree h X i t) : i = 0 ↔ t = .leaf := by
  cases t with
  | leaf => exact ⟨fun _ => rfl, fun _ => ht⟩
  | node c l v r => exact ⟨fun q => absurd q ht.1, fun q => (by cases q)⟩

theorem minimum_ok (size : Int) : ∀ (l : T α) (fuel : Nat) (h : H α) (x : Nat) (as : List Nat) (fs : List (Frame α)) (root : Nat) (c : Bool)
    (v : α) (r : T α), l.depth < fuel → At h (On x as) x (.node c l v r) as fs root → 
    ∃ h' d mid, minimum fuel h x as = some (h', d, mid ++ as) ∧
      At h' (On d (mid ++ as)) d (PersistentSet.minLoop false size c l v r []).node (mid ++ as)
        ((PersistentSet.minLoop false size c l v r []).above ++ fs) root ∧
      mid.length = (PersistentSet.minLoop false size c l v r []).above.length ∧ Agree (Own x as) h h' ∧ ∀ i ∈ mid, i = x ∨ h.next ≤ i := by
  intro l
  induction l with
  | leaf =>
    intro fuel h x as fs root c v r hf z
    obtain ⟨k, rfl⟩ : ∃ k, fuel = k + 1 := ⟨fuel - 1, by omega⟩
    have hl : (h.mem x).left = 0 := z.focus.2.2.2.2.1
    refine ⟨h, x, [], ?_, z, rfl, Agree.refl _ _, by simp⟩
    rw [minimum, hl]
    rfl
  | node lc ll lv lr il _ =>
    intro fuel h x as fs root c v r hf z
    obtain ⟨k, rfl⟩ : ∃ k, fuel = k + 1 := ⟨fuel - 1, by omega⟩
    simp only [T.depth] at hf
    have hl : (h.mem x).left ≠ 0 := z.focus.2.2.2.2.1.1
    obtain ⟨z1, g1⟩ := down_ok (k := .node lc ll lv lr) true z (fun q => (by cases q))
    obtain ⟨h', d, mid, e, z2, hm, g2, hmid⟩ := il k _ h.next (x :: as) (⟨true, c, v, r⟩ :: fs) root lc lv lr (by omega) z1
    refine ⟨h', d, mid ++ [x], ?_, ?_, ?_, ?_, ?_⟩
    · rw [minimum, if_pos hl]
      simp only [copyKid_fst]
      rw [e]; simp
    · rw [PersistentSet.minLoop, PersistentSet.minLoop_above]
      simp only [List.append_assoc, List.cons_append, List.nil_append]
      exact z2
    · rw [PersistentSet.minLoop, PersistentSet.minLoop_above]
      simp [hm]
    · refine (g1.mono (W' := Own x as) (fun i q => .inl ?_)).trans_new g2 ?_
      · have : i = x := q
        rw [this]; exact ⟨z.focus.1, by simp⟩
      · rintro i ⟨q0, q⟩
        rcases List.mem_cons.1 q with q | q
        · exact .inr (by omega)
        · exact .inl ⟨q0, q⟩
    · intro i hi
      rcases List.mem_append.1 hi with q | q
      · have : h.next ≤ (copyKid h x true).2.next := g1.grow
        rcases hmid i q with q | q
        · exact .inr (by omega)
        · exact .inr (by omega)
      · exact .inl (by simpa using q)

theorem Tree.zero {h : H α} {X : Nat → Prop} : ∀ {t : T α} {i : Nat}, Tree h X i t → Tree h (fun j => j = 0 ∨ X j) i t := by
  intro t
  induction t with
  | leaf => intro i q; exact q
  | node c l v r il ir =>
    rintro i ⟨a, b, c, d, e, f, g⟩
    exact ⟨a, b, fun q => q.elim a c, d, e, il f, ir g⟩

theorem Spine.zero {h : H α} {X : Nat → Prop} : ∀ {as : List Nat} {fs : List (Frame α)} {x root : Nat},
    Spine h X x as fs root → Spine h (fun j => j = 0 ∨ X j) x as fs root := by
  intro as
  induction as with
  | nil =>
    intro fs x root s
    cases fs with
    | nil => exact s
    | cons f fs => exact s.elim
  | cons a as ih =>
    intro fs x root s
    cases fs with
    | nil => exact s.elim
    | cons f fs =>
      obtain ⟨a1, a2, a3, a4, a5, a6, a7⟩ := s
      exact ⟨a1, a2, a3, a4, a5, a6.zero, ih a7⟩

/-- The nodes that are written when `d` is taken out: its ancestors, and the copy of its child. -/
def Out (k d : Nat) (as : List Nat) : Nat → Prop := fun i => i = 0 ∨ i = k ∨ i ∈ d :: as

theorem childOf_ok {h : H α} {d root : Nat} {as : List Nat} {fs : List (Frame α)} {c : Bool} {v : α} {l r : T α} (hn : Null h)
    (z : At h (On d as) d (.node c l v r) as fs root) (hlr : l = .leaf ∨ r = .leaf) :
    ∃ k h1, childOf h d = (k, h1) ∧ Agree (fun _ => False) h h1 ∧
      Focus h1 (Out k d as) k (if l.isLeaf then r else l) ∧ Spine h1 (Out k d as) d as fs root ∧ k ∉ d :: as ∧ (k ≠ 0 → h.next ≤ k) := by
  obtain ⟨nd, own, ⟨d1, d2, d3, d4, d5, d6⟩, sp⟩ := z
  have lts := spine_lt sp
  have pos := spine_pos sp
  have key : ∀ (i : Nat) (t : T α), Tree h (On d as) i t → t ≠ .leaf →
      Focus (copy h i).2 (Out h.next d as) h.next t ∧ Spine (copy h i).2 (Out h.next d as) d as fs root ∧ h.next ∉ d :: as := by
    intro i t ht hl
    have ag := copy_agree (fun _ => False) h i
    have sub : ∀ j, j < h.next → Out h.next d as j → j = 0 ∨ On d as j := by
      rintro j hj (q | q | q)
      · exact .inl q
      · omega
      · exact .inr q
    refine ⟨?_, sp.zero.keep ag (fun _ _ q => q.elim) sub (fun _ _ q => q), ?_⟩
    · cases t with
      | leaf => exact absurd rfl hl
      | node kc kl kv kr =>
        obtain ⟨f1, f2, f3, f4, f5, f6, f7⟩ := ht
        have m : (copy h i).2.mem h.next = h.mem i := by rw [copy_mem, if_pos rfl]
        have n1 : (copy h i).2.next = h.next + 1 := rfl
        refine ⟨by omega, by omega, ?_, ?_, ?_, ?_⟩
        · rw [m]; exact f4
        · rw [m]; exact f5
        · rw [m]; exact f6.zero.keep ag (fun _ _ q => q.elim) sub
        · rw [m]; exact f7.zero.keep ag (fun _ _ q => q.elim) sub
    · simp only [List.mem_cons, not_or]
      exact ⟨by omega, fun q => absurd (lts _ q) (by omega)⟩
  unfold childOf
  cases l with
  | node lc ll lv lr =>
    rw [if_pos d5.1]
    obtain ⟨k1, k2, k3⟩ := key _ _ d5 (fun q => (by cases q))
    exact ⟨h.next, _, rfl, copy_agree _ _ _, k1, k2, k3, fun _ => Nat.le_refl _⟩
  | leaf =>
    have : (h.mem d).left = 0 := d5
    rw [if_neg (by rw [this]; simp)]
    cases r with
    | node rc rl rv rr =>
      rw [if_pos d6.1]
      obtain ⟨k1, k2, k3⟩ := key _ _ d6 (fun q => (by cases q))
      exact ⟨h.next, _, rfl, copy_agree _ _ _, k1, k2, k3, fun _ => Nat.le_refl _⟩
    | leaf =>
      have : (h.mem d).right = 0 := d6
      rw [if_neg (by rw [this]; simp)]
      refine ⟨0, h, rfl, Agree.refl _ _, rfl, ?_, ?_, fun q => absurd rfl q⟩
      · exact sp.zero.mono (fun i q => by
          rcases q with q | q | q
          · exact .inl q
          · exact .inl q
          · exact .inr q)
      · simp only [List.mem_cons, not_or]
        exact ⟨fun q => d1 q.symm, fun q => pos _ q rfl⟩

/-- The child is put in the place of the node. -/
theorem relink_ok {h : H α} {d k a root : Nat} {as : List Nat} {f : Frame α} {fs : List (Frame α)} {t : T α} (hd : d ≠ 0)
    (nd : (d :: a :: as).Nodup) (hk : k ∉ d :: a :: as) (fo : Focus h (Out k d (a :: as)) k t)
    (sp : Spine h (Out k d (a :: as)) d (a :: as) (f :: fs) root) :
    ∃ h', (if d = (h.mem a).left then setKid h a true k else setKid h a false k) = h' ∧ Focus h' (Out k d (a :: as)) k t ∧
      Spine h' (Out k d (a :: as)) k (a :: as) (f :: fs) root ∧ Agree (fun i => i = a) h h' ∧ h'.mem d = h.mem d := by
  obtain ⟨a1, a2, a3, a4, a5, a6, a7⟩ := sp
  have hXd : Out k d (a :: as) d := .inr (.inr (by simp))
  have hXa : Out k d (a :: as) a := .inr (.inr (by simp))
  have hs := side_eq a5 a6 hXd (.inl hd)
  have e : (if d = (h.mem a).left then setKid h a true k else setKid h a false k) = setKid h a f.left k := by
    cases hf : f.left with
    | true => rw [hf] at hs; rw [if_pos (of_decide_eq_true hs)]
    | false => rw [hf] at hs; rw [if_neg (of_decide_eq_false hs)]
  have ag := setKid_agree h a f.left k
  have m := setKid_mem h a f.left k
  refine ⟨_, e, ?_⟩
  have n1 : (setKid h a f.left k).next = h.next := rfl
  generalize setKid h a f.left k = h' at ag m n1
  have hw : ∀ i, i < h.next → (fun j => j = a) i → Out k d (a :: as) i := fun i _ q => by
    have : i = a := q
    rw [this]; exact hXa
  simp only [List.nodup_cons, List.mem_cons, not_or] at nd hk
  have ma : h'.mem a = (h.mem a).withKid f.left k := by rw [m, if_pos rfl]
  refine ⟨fo.agree ag hw (fun q => hk.2.1 q), ⟨a1, by omega, ?_, ?_, ?_, ?_, ?_⟩, ag, ?_⟩
  · rw [ma, withKid_red]; exact a3
  · rw [ma, withKid_value]; exact a4
  · rw [ma, withKid_kid]
  · rw [ma, withKid_other]; exact a6.agree ag hw
  · exact a7.agree ag hw (fun b hb q => nd.2.1 ((show b = a from q) ▸ hb))
  · rw [m, if_neg nd.1.1]

/-- A node in the midst of the path gets another value. -/
theorem value_ok {h : H α} {X : Nat → Prop} {n : Nat} {B : List Nat} {f : Frame α} {G : List (Frame α)} {root : Nat} (w : α) (hX : X n) :
    ∀ (A : List Nat) (F : List (Frame α)) (x : Nat), A.length = F.length → (A ++ n :: B).Nodup → Spine h X x (A ++ n :: B) (F ++ f :: G) root →
      Spine (setValue h n (some w)) X x (A ++ n :: B) (F ++ ⟨f.left, f.red, w, f.sib⟩ :: G) root := by
  have ag := setValue_agree h n (some w)
  have m := setValue_mem h n (some w)
  have n1 : (setValue h n (some w)).next = h.next := rfl
  generalize setValue h n (some w) = h' at ag m n1
  have hw : ∀ i, i < h.next → (fun j => j = n) i → X i := fun i _ q => by
    have : i = n := q
    rw [this]; exact hX
  intro A
  induction A with
  | nil =>
    intro F x hl nd sp
    cases F with
    | cons _ _ => simp at hl
    | nil =>
      obtain ⟨a1, a2, a3, a4, a5, a6, a7⟩ := sp
      simp only [List.nil_append, List.nodup_cons] at nd
      have mn : h'.mem n = { h.mem n with value := some w } := by rw [m, if_pos rfl]
      refine ⟨a1, by omega, ?_, ?_, ?_, ?_, ?_⟩
      · rw [mn]; exact a3
      · rw [mn]
      · rw [mn]; exact a5
      · rw [mn]; exact a6.agree ag hw
      · exact a7.agree ag hw (fun b hb q => nd.1 ((show b = n from q) ▸ hb))
  | cons a A ih =>
    intro F x hl nd sp
    cases F with
    | nil => simp at hl
    | cons g F =>
      obtain ⟨a1, a2, a3, a4, a5, a6, a7⟩ := sp
      simp only [List.cons_append, List.nodup_cons] at nd
      have ma : h'.mem a = h.mem a := by
        rw [m, if_neg (fun q => nd.1 (by rw [q]; simp))]
      refine ⟨a1, by omega, ?_, ?_, ?_, ?_, ih F a (by simpa using hl) nd.2 a7⟩
      · rw [ma]; exact a3
      · rw [ma]; exact a4
      · rw [ma]; exact a5
      · rw [ma]; exact a6.agree ag hw

theorem findLoop_depth (cmp : α → α → Int) (v : α) (size : Int) : ∀ (t : T α) (fs : List (Frame α)),
    (PersistentSet.findLoop cmp v size t fs).r.depth ≤ t.depth := by
  intro t
  induction t with
  | leaf => intro fs; simp [PersistentSet.findLoop]
  | node c l x r il ir =>
    intro fs
    rw [PersistentSet.findLoop]
    split
    · exact Nat.le_trans (il _) (by simp only [T.depth]; omega)
    · split
      · exact Nat.le_trans (ir _) (by simp only [T.depth]; omega)
      · simp only [T.depth]; omega

theorem spine_length {h : H α} {X : Nat → Prop} : ∀ {as : List Nat} {fs : List (Frame α)} {x root : Nat},
    Spine h X x as fs root → as.length = fs.length := by
  intro as
  induction as with
  | nil =>
    intro fs x root s
    cases fs with
    | nil => rfl
    | cons f fs => exact s.elim
  | cons a as ih =>
    intro fs x root s
    cases fs with
    | nil => exact s.elim
    | cons f fs =>
      obtain ⟨a1, a2, a3, a4, a5, a6, a7⟩ := s
      simp only [List.length_cons, ih a7]

/-- The node to take out, where it is not the one of the path. -/
theorem two_ok {h : H α} {p : Path} {z : PersistentSet.Path α} {fuel : Nat} (zz : At h (On p.node p.ancestors) p.node z.node p.ancestors z.above p.root)
    (hf : z.r.depth < fuel) {rc : Bool} {rl : T α} {rv : α} {rr : T α} (hl : z.l ≠ .leaf) (hr : z.r = .node rc rl rv rr) :
    ∃ h' d mid, dead fuel h p = some (h', d, mid ++ p.node :: p.ancestors) ∧
      At h' (On d (mid ++ p.node :: p.ancestors)) d (PersistentSet.minLoop false z.size rc rl rv rr []).node (mid ++ p.node :: p.ancestors)
        ((PersistentSet.minLoop false z.size rc rl rv rr []).above ++ ⟨false, z.red, z.v, z.l⟩ :: z.above) p.root ∧
      mid.length = (PersistentSet.minLoop false z.size rc rl rv rr []).above.length ∧ Agree (Own p.node p.ancestors) h h' ∧
      ∀ i ∈ mid, h.next ≤ i := by
  obtain ⟨x1, x2, x3, x4, x5, x6⟩ := zz.focus
  have h1 : (h.mem p.node).left ≠ 0 := fun q => hl ((kid_leaf x5).1 q)
  have h2 : (h.mem p.node).right ≠ 0 := fun q => by
    have := (kid_leaf x6).1 q
    rw [hr] at this
    cases this
  have zz' : At h (On p.node p.ancestors) p.node (mk false z.red (.node rc rl rv rr) z.v z.l) p.ancestors z.above p.root := by
    have : mk false z.red (.node rc rl rv rr) z.v z.l = z.node := by
      unfold PersistentSet.mk PersistentSet.Path.node
      rw [hr]; rfl
    rw [this]; exact zz
  obtain ⟨z1, g1⟩ := down_ok false zz' (fun q => (by cases q))
  rw [hr] at hf
  simp only [T.depth] at hf
  obtain ⟨h', d, mid, e, z2, hm, g2, hmid⟩ := minimum_ok z.size rl fuel _ h.next (p.node :: p.ancestors) (⟨false, z.red, z.v, z.l⟩ :: z.above) p.root rc rv rr
    (by omega) z1
  refine ⟨h', d, mid, ?_, z2, hm, ?_, ?_⟩
  · unfold dead
    rw [if_neg (by simp [h1, h2])]
    exact e
  · refine (g1.mono (W' := Own p.node p.ancestors) (fun i q => .inl ?_)).trans_new g2 ?_
    · have : i = p.node := q
      rw [this]; exact ⟨x1, by simp⟩
    · rintro i ⟨q0, q⟩
      rcases List.mem_cons.1 q with q | q
      · exact .inr (by omega)
      · exact .inl ⟨q0, q⟩
  · intro i hi
    have := g1.grow
    rcases hmid i hi with q | q <;> omega

/-- What is done when the child is in its place. -/
theorem tail_ok {h : H α} {k d root : Nat} {as : List Nat} {fs : List (Frame α)} {t : T α} {dred : Bool} {size : Int} (hn : Null h)
    (z : At h (On k as) k t as fs root) (hd : (h.mem d).red = dred) {s' : PSet α}
    (e : (if dred then .ok ⟨plug t fs, size - 1⟩ else match PersistentSet.delLoop t fs with
        | .error e => .error e
        | .ok t => .ok ⟨t, size - 1⟩ : Except Exn (PSet α)) = .ok s') :
    ∃ h' r, (if (h.mem d).red then some (.ok (h, (⟨root, size - 1⟩ : Set)))
        else
          match delLoop (as.length + 2) h root k as with
          | none => none
          | some (h, root, child) => some (.ok (setRed h child false, ⟨root, size - 1⟩)) : Option (Except Exn (H α × Set))) =
        some (.ok (h', r)) ∧ Tree h' Any r.root s'.root ∧ r.size = s'.size ∧ Agree (Own k as) h h' := by
  rw [hd]
  cases dred with
  | true =>
    simp only [if_true] at e ⊢
    cases e
    exact ⟨_, _, rfl, z.spine.tree z.focus.tree, rfl, Agree.refl _ _⟩
  | false =>
    simp only [Bool.false_eq_true, if_false] at e ⊢
    cases hdl : PersistentSet.delLoop t fs with
    | error x => rw [hdl] at e; exact absurd e (by simp)
    | ok r =>
      rw [hdl] at e
      simp only at e
      cases e
      obtain ⟨h', root', child, e1, t1, g1⟩ := delLoop_ok fs (as.length + 2) h k t as root r (by rw [spine_length z.spine]; omega) hn z hdl
      refine ⟨_, _, by rw [e1], t1, rfl, g1⟩

theorem removePath_ok {h : H α} {s : Set} {p : Path} {z : PersistentSet.Path α} {fuel n0 : Nat} (hn : Null h) (h0 : 0 < n0) (hle : n0 ≤ h.next)
    (zz : At h (fun i => n0 ≤ i) p.node z.node p.ancestors z.above p.root) (hf : z.r.depth < fuel) (hs : s.size = z.size) {s' : PSet α}
    (e : PersistentSet.removePath false z = .ok s') :
    ∃ h' r, removePath fuel h s p = some (.ok (h', r)) ∧ Tree h' Any r.root s'.root ∧ r.size = s'.size ∧ Agree (fun i => n0 ≤ i) h h' := by
  have own := zz.own
  have za := zz.on
  clear zz
  unfold PersistentSet.removePath at e
  unfold removePath
  rw [hs]
  by_cases h1 : z.size = 1
  · rw [if_pos h1] at e
    exact absurd e (by simp)
  · rw [if_neg h1] at e ⊢
    simp only at e
    by_cases hlr : z.l = .leaf ∨ z.r = .leaf
    · -- the node itself
      have e1 : PersistentSet.dead z = z := by
        unfold PersistentSet.dead
        rw [if_pos (by rcases hlr with q | q <;> simp [q, T.isLeaf])]
      rw [e1] at e
      have e2 : dead fuel h p = some (h, p.node, p.ancestors) := by
        obtain ⟨_, _, _, _, x5, x6⟩ := za.focus
        unfold dead
        rw [if_pos (hlr.imp (kid_leaf x5).2 (kid_leaf x6).2)]
      rw [e2]
      simp only
      obtain ⟨k, h2, ek, g2, fo2, sp2, hk, hk0⟩ := childOf_ok hn za hlr
      have hn2 : Null h2 := hn.agree g2 (fun q => q)
      have hkk : ∀ i, i = k → i ≠ 0 → n0 ≤ i := fun i q q0 => by
        subst q
        exact Nat.le_trans hle (hk0 q0)
      obtain ⟨x1, x2, x3, x4, x5, x6⟩ := za.focus
      have nd := za.nodup
      have md : h2.mem p.node = h.mem p.node := g2.keep _ x2 (fun q => q)
      rw [ek]
      simp only
      cases hab : z.above with
      | nil =>
        rw [hab] at sp2 e
        cases has : p.ancestors with
        | cons a as => rw [has] at sp2; exact sp2.elim
        | nil =>
          simp only at e ⊢
          cases e
          refine ⟨_, _, rfl, ?_, rfl, ?_⟩
          · exact delEnd_ok (fs := []) (as := []) ⟨by simp, fun _ q => q, fo2.mono (fun i q => by
              have : i = k := by simpa [On] using q
              exact .inr (.inl this)), rfl⟩
          · refine (g2.mono (fun _ q => q.elim)).trans (paint_agree hn2 k (fun q => hkk k rfl q))
      | cons f fs =>
        rw [hab] at sp2 e
        cases has : p.ancestors with
        | nil => rw [has] at sp2; exact sp2.elim
        | cons a as =>
          rw [has] at sp2 nd own hk fo2
          simp only at e ⊢
          obtain ⟨h3, e3, fo3, sp3, g3, m3⟩ := relink_ok x1 nd hk fo2 sp2
          simp only [e3, ne_eq, not_true_eq_false, if_false]
          have a1 := sp3.1
          have ga : Agree (fun i => n0 ≤ i) h h3 := (g2.mono (fun _ q => q.elim)).trans (g3.mono (fun i q => .inl (by
            have : i = a := q
            rw [this]; exact own a (by simp))))
          have hn3 : Null h3 := hn.agree ga (by omega)
          have z3 : At h3 (Out k p.node (a :: as)) k (if z.l.isLeaf then z.r else z.l) (a :: as) (f :: fs) p.root := by
            refine ⟨List.nodup_cons.2 ⟨fun q => hk (List.mem_cons_of_mem _ q), (List.nodup_cons.1 nd).2⟩, ?_, fo3, sp3⟩
            intro i q
            rcases List.mem_cons.1 q with q | q
            · exact .inr (.inl q)
            · exact .inr (.inr (List.mem_cons_of_mem _ q))
          obtain ⟨h4, r, e4, t4, s4, g4⟩ := tail_ok (d := p.node) (size := z.size) hn3 z3.on (by rw [m3, md]; exact x3) e
          refine ⟨h4, r, e4, t4, s4, ga.trans (g4.mono (fun i q => .inl ?_))⟩
          rcases List.mem_cons.1 q.2 with w | w
          · exact hkk i w q.1
          · exact own i (List.mem_cons_of_mem _ w)
    · -- the next one
      have hl : z.l ≠ .leaf := fun q => hlr (.inl q)
      cases hr : z.r with
      | leaf => exact absurd (.inr hr) hlr
      | node rc rl rv rr =>
        obtain ⟨h1', d, mid, e2, zd, hm, g1, hmid⟩ := two_ok (p := p) za hf hl hr
        have e1 : PersistentSet.dead z = { PersistentSet.minLoop false z.size rc rl rv rr [] with
            above := (PersistentSet.minLoop false z.size rc rl rv rr []).above ++
              ⟨false, z.red, (PersistentSet.minLoop false z.size rc rl rv rr []).v, z.l⟩ :: z.above } := by
          unfold PersistentSet.dead
          rw [if_neg (by
            rw [hr]
            cases hq : z.l with
            | leaf => exact absurd hq hl
            | node _ _ _ _ => simp [T.isLeaf]), hr]
        rw [e1] at e
        have hml := (PersistentSet.minLoop_ok false z.size rc rl rv rr []).1
        rw [e2]
        generalize PersistentSet.minLoop false z.size rc rl rv rr [] = D at e zd hm hml
        simp only at e ⊢
        have ga1 : Agree (fun i => n0 ≤ i) h h1' := g1.mono (fun i q => .inl (own i q.2))
        have hn1 : Null h1' := hn.agree ga1 (by omega)
        obtain ⟨k, h2, ek, g2, fo2, sp2, hk, hk0⟩ := childOf_ok hn1 zd (.inl hml)
        have hkk : ∀ i, i = k → i ≠ 0 → n0 ≤ i := fun i q q0 => by
          subst q
          exact Nat.le_trans (Nat.le_trans hle ga1.grow) (hk0 q0)
        obtain ⟨x1, x2, x3, x4, x5, x6⟩ := zd.focus
        have nd := zd.nodup
        have md : h2.mem d = h1'.mem d := g2.keep _ x2 (fun q => q)
        have ownd : ∀ i ∈ mid ++ p.node :: p.ancestors, i ≠ 0 → n0 ≤ i := by
          intro i hi _
          rcases List.mem_append.1 hi with q | q
          · exact Nat.le_trans hle (hmid i q)
          · exact own i q
        have hdn : d ≠ p.node := fun q => (List.nodup_cons.1 nd).1 (by rw [q]; simp)
        rw [ek]
        simp only
        cases hAs : mid ++ p.node :: p.ancestors with
        | nil => simp at hAs
        | cons a as =>
          cases hFs : D.above ++ ⟨false, z.red, z.v, z.l⟩ :: z.above with
          | nil => simp at hFs
          | cons f fs =>
            rw [hAs] at nd hk fo2
            rw [hAs, hFs] at sp2
            simp only
            obtain ⟨h3, e3, fo3, sp3, g3, m3⟩ := relink_ok x1 nd hk fo2 sp2
            simp only [e3, ne_eq, hdn, not_false_eq_true, if_true]
            have ga : Agree (fun i => n0 ≤ i) h h3 := (ga1.trans (g2.mono (fun _ q => q.elim))).trans (g3.mono (fun i q => .inl (by
              have : i = a := q
              rw [this]; exact ownd a (by rw [hAs]; simp) sp2.1)))
            have hv : (h3.mem d).value = some D.v := by rw [m3, md]; exact x4
            rw [hv]
            have hpa : p.node ∈ a :: as := by rw [← hAs]; simp
            have hXp : Out k d (a :: as) p.node := .inr (.inr (List.mem_cons_of_mem _ hpa))
            rw [← hAs, ← hFs] at sp3
            have sp4 := value_ok D.v (by rw [hAs]; exact hXp) mid D.above k hm (by rw [hAs]; exact (List.nodup_cons.1 nd).2) sp3
            have g4 := setValue_agree h3 p.node (some D.v)
            have m4 : ((setValue h3 p.node (some D.v)).mem d).red = D.red := by
              rw [setValue_mem, if_neg hdn, m3, md]; exact x3
            have fo4 := fo3.agree g4 (fun i _ q => by
              have : i = p.node := q
              rw [this]; exact hXp) (fun q => hk (List.mem_cons_of_mem _ ((show k = p.node from q) ▸ hpa)))
            generalize setValue h3 p.node (some D.v) = h4 at sp4 g4 m4 fo4
            rw [hAs] at sp4
            have gb : Agree (fun i => n0 ≤ i) h h4 := ga.trans (g4.mono (fun i q => .inl (by
              have : i = p.node := q
              rw [this]; exact own _ (by simp))))
            have hn4 : Null h4 := hn.agree gb (by omega)
            have z4 : At h4 (Out k d (a :: as)) k (if D.l.isLeaf then D.r else D.l) (a :: as)
                (D.above ++ ⟨false, z.red, D.v, z.l⟩ :: z.above) p.root := by
              refine ⟨List.nodup_cons.2 ⟨fun q => hk (List.mem_cons_of_mem _ q), (List.nodup_cons.1 nd).2⟩, ?_, fo4, sp4⟩
              intro i q
              rcases List.mem_cons.1 q with q | q
              · exact .inr (.inl q)
              · exact .inr (.inr (List.mem_cons_of_mem _ q))
            cases hFs' : D.above ++ ⟨false, z.red, D.v, z.l⟩ :: z.above with
            | nil => simp at hFs'
            | cons f' fs' =>
              rw [hFs'] at e z4
              simp only at e
              obtain ⟨h5, r, e5, t5, s5, g5⟩ := tail_ok (d := d) (size := z.size) hn4 z4.on m4 e
              refine ⟨h5, r, e5, t5, s5, gb.trans (g5.mono (fun i q => .inl ?_))⟩
              rcases List.mem_cons.1 q.2 with w | w
              · exact hkk i w q.1
              · exact ownd i (by rw [hAs]; exact w) q.1

/-- `remove` of the nodes does what `remove` of the trees does, and writes only to new nodes. -/
theorem remove_ok (cmp : α → α → Int) (v : α) {h : H α} {s : Set} {t : T α} (hn : Null h) (ht : Tree h Any s.root t) {fuel : Nat}
    (hf : t.depth < fuel) {s' : PSet α} (e : PersistentSet.remove cmp ⟨t, s.size⟩ v = .ok s') :
    ∃ h' r, remove cmp fuel h s v = some (.ok (h', r)) ∧ Tree h' Any r.root s'.root ∧ r.size = s'.size ∧
      Agree (fun i => h.next ≤ i) h h' := by
  obtain ⟨h1, p, e1, es, f1, f2, f3⟩ := find_ok cmp v hn ht hf
  have hp := hn.pos
  have hn1 : Null h1 := hn.agree f3 (by omega)
  have ef : (PersistentSet.find cmp ⟨t, s.size⟩ v).size = s.size := by
    unfold PersistentSet.find
    exact findLoop_size cmp v s.size t []
  have ed : (PersistentSet.find cmp ⟨t, s.size⟩ v).r.depth < fuel := by
    unfold PersistentSet.find
    exact Nat.lt_of_le_of_lt (findLoop_depth cmp v s.size t []) hf
  unfold remove
  simp only [e1]
  unfold PersistentSet.remove at e
  simp only at e
  generalize PersistentSet.find cmp ⟨t, s.size⟩ v = z at e f1 f2 ef ed
  rw [f1]
  cases hz : z.fresh with
  | true =>
    rw [hz] at e
    simp only [Bool.not_true, Bool.false_eq_true, if_false] at e ⊢
    cases e
    exact ⟨h1, s, rfl, (ht.below.agree f3 (fun i _ q => q)).mono (fun _ q => q.elim), rfl, f3⟩
  | false =>
    rw [hz] at e
    simp only [Bool.not_false, if_true] at e ⊢
    obtain ⟨h2, r, e2, t2, s2, g2⟩ := removePath_ok (s := s) hn1 hp f3.grow f2 ed ef.symm e
    exact ⟨h2, r, e2, t2, s2, f3.trans g2⟩

/-- The removal of the only element fails: the path found has copies of the nodes of the set. -/
theorem remove_only (cmp : α → α → Int) (v : α) {h : H α} {s : Set} {t : T α} (hn : Null h) (ht : Tree h Any s.root t) {fuel : Nat}
    (hf : t.depth < fuel) (h1 : s.size = 1) (hz : (PersistentSet.find cmp ⟨t, s.size⟩ v).fresh = false) :
    remove cmp fuel h s v = some (.error .illegalArgument) := by
  obtain ⟨h1', p, e1, es, f1, f2, f3⟩ := find_ok cmp v hn ht hf
  have hr : s.root < h.next := by
    have hp := hn.pos
    cases t with
    | leaf =>
      have : s.root = 0 := ht
      omega
    | node _ _ _ _ => exact ht.2.1
  have hX : h.next ≤ p.node := f2.own _ (by simp)
  unfold remove
  simp only [e1, f1, hz, Bool.not_false, if_true]
  unfold removePath
  rw [if_pos h1, if_pos (by omega)]

/-! ### Any number of sets, each made from an earlier one -/

/-- What is read by going through the nodes of a set, left to right. -/
def readNodes : Nat → H α → Nat → List α
  | 0, _, _ => []
  | fuel + 1, h, i =>
    if i = 0 then []
    else readNodes fuel h (h.mem i).left ++ (h.mem i).value.toList ++ readNodes fuel h (h.mem i).right

/-- An operation on a set. -/
def op1 (cmp : α → α → Int) (h : H α) (s : Set) : PersistentSet.Op α → Option (Except Exn (H α × Set))
  | .add v rep => add cmp (s.size.toNat + 1) h s v rep
  | .remove v => remove cmp (s.size.toNat + 1) h s v

/-- The program has made some sets.  It takes one of them, whichever, and makes one more from it; if that fails there is none. -/
def grow (cmp : α → α → Int) (st : H α × List Set) (o : Nat × PersistentSet.Op α) : H α × List Set :=
  match st.2[o.1]? with
  | none => st
  | some s =>
    match op1 cmp st.1 s o.2 with
    | some (.ok (h, s')) => (h, st.2 ++ [s'])
    | _ => st

/-- Only the removal of the only element fails. -/
def fails (cmp : α → α → Int) (l : List α) : PersistentSet.Op α → Bool
  | .add _ _ => false
  | .remove v => l.length == 1 && (PersistentSet.findSpec cmp v l).isSome

/-- The same with lists. -/
def growSpec (cmp : α → α → Int) (ls : List (List α)) (o : Nat × PersistentSet.Op α) : List (List α) :=
  match ls[o.1]? with
  | none => ls
  | some l => if fails cmp l o.2 then ls else ls ++ [PersistentSet.stepSpec cmp l o.2]

/-- The nodes of the set are a search tree with these elements. -/
def Holds (cmp : α → α → Int) (h : H α) (s : Set) (l : List α) : Prop :=
  ∃ t, Tree h Any s.root t ∧ PersistentSet.Rep cmp ⟨t, s.size⟩ l

theorem depth_le : ∀ (t : T α), t.depth ≤ t.inorder.length := by
  intro t
  induction t with
  | leaf => simp [T.depth]
  | node c l v r il ir =>
    simp only [T.depth, PersistentSet.T.inorder, List.length_append, List.length_cons]
    omega

theorem readNodes_ok {h : H α} : ∀ {t : T α} {i fuel : Nat}, Tree h Any i t → t.depth < fuel → readNodes fuel h i = t.inorder := by
  intro t
  induction t with
  | leaf =>
    intro i fuel ht hf
    obtain ⟨k, rfl⟩ : ∃ k, fuel = k + 1 := ⟨fuel - 1, by omega⟩
    have : i = 0 := ht
    rw [readNodes, if_pos this]; rfl
  | node c l v r il ir =>
    intro i fuel ht hf
    obtain ⟨k, rfl⟩ : ∃ k, fuel = k + 1 := ⟨fuel - 1, by omega⟩
    simp only [T.depth] at hf
    obtain ⟨a, b, c, d, e, f, g⟩ := ht
    rw [readNodes, if_neg a, il f (by omega), ir g (by omega), e]
    simp [PersistentSet.T.inorder]

theorem Holds.depth {cmp : α → α → Int} {h : H α} {s : Set} {l : List α} {t : T α} (r : PersistentSet.Rep cmp ⟨t, s.size⟩ l)  :
    t.depth < s.size.toNat + 1 := by
  have h1 : s.size = l.length := r.size
  have h2 : t.inorder = l := r.elems
  have := depth_le t
  rw [h2] at this
  omega

theorem Holds.agree {cmp : α → α → Int} {h h' : H α} {s : Set} {l : List α} (x : Holds cmp h s l) (ag : Agree (fun i => h.next ≤ i) h h') :
    Holds cmp h' s l := by
  obtain ⟨t, h1, h2⟩ := x
  exact ⟨t, (h1.below.agree ag (fun i _ q => q)).mono (fun _ q => q.elim), h2⟩

/-- One operation: there is a new set with the right elements, or the operation fails; no old node is changed. -/
theorem op1_ok {cmp : α → α → Int} (o : PersistentSet.Order cmp) {h : H α} {s : Set} {l : List α} (hn : Null h) (x : Holds cmp h s l)
    (op : PersistentSet.Op α) :
    if fails cmp l op then op1 cmp h s op = some (.error .illegalArgument)
    else ∃ h' s', op1 cmp h s op = some (.ok (h', s')) ∧ Holds cmp h' s' (PersistentSet.stepSpec cmp l op) ∧
      Agree (fun i => h.next ≤ i) h h' := by
  obtain ⟨t, ht, hr⟩ := x
  have hd := Holds.depth (h := h) hr
  have done : ∀ {P : PSet α} {h' : H α} {r : Set} {l' : List α}, PersistentSet.Rep cmp P l' → Tree h' Any r.root P.root → r.size = P.size →
      Holds cmp h' r l' := by
    intro P h' r l' a b c
    refine ⟨P.root, b, ?_⟩
    rw [c]; exact a
  cases op with
  | add v rep =>
    simp only [fails, Bool.false_eq_true, if_false]
    obtain ⟨s', e, hr'⟩ := PersistentSet.add_ok o hr v rep
    obtain ⟨h', r, e1, t1, s1, g1⟩ := add_ok cmp v rep hn ht hd e
    exact ⟨h', r, e1, done hr' t1 s1, g1⟩
  | remove v =>
    have fs := PersistentSet.find_spec o hr v
    have hsz : s.size = l.length := hr.size
    by_cases hl : l.length = 1
    · cases hz : (PersistentSet.find cmp ⟨t, s.size⟩ v).fresh with
      | false =>
        rw [hz] at fs
        have hfail : fails cmp l (.remove v) = true := by simp [fails, fs, hl]
        rw [if_pos hfail]
        exact remove_only cmp v hn ht hd (by omega) hz
      | true =>
        rw [hz] at fs
        have hfail : ¬ fails cmp l (.remove v) = true := by simp [fails, fs]
        have hsp : PersistentSet.stepSpec cmp l (.remove v) = l := by simp [PersistentSet.stepSpec, hl]
        rw [if_neg hfail, hsp]
        have e : PersistentSet.remove cmp ⟨t, s.size⟩ v = .ok ⟨t, s.size⟩ := by
          unfold PersistentSet.remove; simp [hz]
        obtain ⟨h', r, e1, t1, s1, g1⟩ := remove_ok cmp v hn ht hd e
        exact ⟨h', r, e1, done hr t1 s1, g1⟩
    · have hfail : ¬ fails cmp l (.remove v) = true := by simp [fails, hl]
      have hsp : PersistentSet.stepSpec cmp l (.remove v) = PersistentSet.eraseSpec cmp v l := by simp [PersistentSet.stepSpec, hl]
      rw [if_neg hfail, hsp]
      obtain ⟨s', e, hr'⟩ := PersistentSet.remove_ok_partial o hr v hl
      obtain ⟨h', r, e1, t1, s1, g1⟩ := remove_ok cmp v hn ht hd e
      exact ⟨h', r, e1, done hr' t1 s1, g1⟩

/-- All the sets there are. -/
structure All (cmp : α → α → Int) (st : H α × List Set) (ls : List (List α)) : Prop where
  null : Null st.1
  len : st.2.length = ls.length
  each : ∀ (k : Nat) (s : Set) (l : List α), st.2[k]? = some s → ls[k]? = some l → Holds cmp st.1 s l

theorem grow_ok {cmp : α → α → Int} (o : PersistentSet.Order cmp) {st : H α × List Set} {ls : List (List α)} (a : All cmp st ls)
    (q : Nat × PersistentSet.Op α) : All cmp (grow cmp st q) (growSpec cmp ls q) := by
  unfold grow growSpec
  have hlen := a.len
  cases hs : st.2[q.1]? with
  | none =>
    have : ls[q.1]? = none := by
      rw [List.getElem?_eq_none_iff] at hs ⊢
      omega
    rw [this]
    exact a
  | some s =>
    cases hl : ls[q.1]? with
    | none =>
      rw [List.getElem?_eq_none_iff] at hl
      have := (List.getElem?_eq_some_iff.1 hs).1
      omega
    | some l =>
      have hh := a.each q.1 s l hs hl
      have := op1_ok o a.null hh q.2
      simp only
      by_cases hf : fails cmp l q.2 = true
      · rw [if_pos hf] at this
        rw [if_pos hf, this]
        exact a
      · rw [if_neg hf] at this
        obtain ⟨h', s', e, hs', g⟩ := this
        rw [if_neg hf, e]
        have hp := a.null.pos
        refine ⟨a.null.agree g (by omega), by simp [hlen], ?_⟩
        intro k s2 l2 h1 h2
        simp only at h1 h2 ⊢
        by_cases hk : k < st.2.length
        · rw [List.getElem?_append_left hk] at h1
          rw [List.getElem?_append_left (by omega)] at h2
          exact (a.each k s2 l2 h1 h2).agree g
        · rw [List.getElem?_append_right (by omega)] at h1
          rw [List.getElem?_append_right (by omega)] at h2
          have hk0 : k - st.2.length = 0 := by
            have := (List.getElem?_eq_some_iff.1 h1).1
            simp at this
            omega
          have hk1 : k - ls.length = 0 := by omega
          rw [hk0] at h1
          rw [hk1] at h2
          cases h1
          cases h2
          exact hs'

theorem start_all (cmp : α → α → Int) : All cmp ((start, [⟨0, 0⟩]) : H α × List Set) [[]] := by
  refine ⟨⟨Nat.zero_lt_one, rfl⟩, rfl, ?_⟩
  intro k s l h1 h2
  have : k = 0 := by
    have := (List.getElem?_eq_some_iff.1 h1).1
    simp at this
    omega
  subst this
  cases h1
  cases h2
  exact ⟨.leaf, rfl, PersistentSet.empty_rep cmp⟩

theorem run_all {cmp : α → α → Int} (o : PersistentSet.Order cmp) (ops : List (Nat × PersistentSet.Op α)) {st : H α × List Set} {ls : List (List α)}
    (a : All cmp st ls) : All cmp (ops.foldl (grow cmp) st) (ops.foldl (growSpec cmp) ls) := by
  induction ops generalizing st ls with
  | nil => exact a
  | cons q ops ih => exact ih (grow_ok o a q)

theorem growSpec_prefix (cmp : α → α → Int) (ops : List (Nat × PersistentSet.Op α)) (ls : List (List α)) :
    ls <+: ops.foldl (growSpec cmp) ls := by
  induction ops generalizing ls with
  | nil => exact List.prefix_refl _
  | cons q ops ih =>
    refine List.IsPrefix.trans ?_ (ih _)
    unfold growSpec
    split
    · exact List.prefix_refl _
    · split
      · exact List.prefix_refl _
      · exact List.prefix_append _ _

theorem grow_prefix (cmp : α → α → Int) (ops : List (Nat × PersistentSet.Op α)) (st : H α × List Set) :
    st.2 <+: (ops.foldl (grow cmp) st).2 := by
  induction ops generalizing st with
  | nil => exact List.prefix_refl _
  | cons q ops ih =>
    refine List.IsPrefix.trans ?_ (ih _)
    unfold grow
    split
    · exact List.prefix_refl _
    · split
      · exact List.prefix_append _ _
      · exact List.prefix_refl _

/-- A program makes sets from the empty set and from each other, in any order.  In the end the `k`-th set has the elements
that the `k`-th list has: it is read from its nodes, and its size is right. -/
theorem versions_ok {cmp : α → α → Int} (o : PersistentSet.Order cmp) (ops : List (Nat × PersistentSet.Op α)) :
    let st := ops.foldl (grow cmp) (start, [⟨0, 0⟩])
    let ls := ops.foldl (growSpec cmp) [[]]
    st.2.length = ls.length ∧ ∀ (k : Nat) (s : Set) (l : List α), st.2[k]? = some s → ls[k]? = some l →
      readNodes (l.length + 1) st.1 s.root = l ∧ s.size = l.length ∧ PersistentSet.Sorted cmp l := by
  have a := run_all o ops (start_all cmp)
  refine ⟨a.len, ?_⟩
  intro k s l h1 h2
  obtain ⟨t, h3, h4⟩ := a.each k s l h1 h2
  have e : t.inorder = l := h4.elems
  refine ⟨?_, h4.size, h4.sorted⟩
  rw [readNodes_ok h3 (by have := depth_le t; rw [e] at this; omega), e]

/-- A set, once made, stays as it is whatever is made later, from it or from others. -/
theorem persistent {cmp : α → α → Int} (o : PersistentSet.Order cmp) (ops later : List (Nat × PersistentSet.Op α)) {k : Nat} {s : Set} :
    let st := ops.foldl (grow cmp) (start, [⟨0, 0⟩])
    let st' := later.foldl (grow cmp) st
    st.2[k]? = some s → st'.2[k]? = some s ∧ ∀ fuel, s.size.toNat < fuel → readNodes fuel st'.1 s.root = readNodes fuel st.1 s.root := by
  intro st st' hs
  have a := run_all o ops (start_all cmp)
  have b := run_all o later a
  have hs' : st'.2[k]? = some s := by
    obtain ⟨t, ht⟩ := grow_prefix cmp later st
    show (later.foldl (grow cmp) st).2[k]? = some s
    rw [← ht, List.getElem?_append_left (List.getElem?_eq_some_iff.1 hs).1]
    exact hs
  refine ⟨hs', ?_⟩
  intro fuel hf
  have hk : k < (ops.foldl (growSpec cmp) [[]]).length := by
    rw [← a.len]; exact (List.getElem?_eq_some_iff.1 hs).1
  have hl := List.getElem?_eq_getElem hk
  generalize (ops.foldl (growSpec cmp) [[]])[k] = l at hl
  have hl' : (later.foldl (growSpec cmp) (ops.foldl (growSpec cmp) [[]]))[k]? = some l := by
    obtain ⟨t, ht⟩ := growSpec_prefix cmp later (ops.foldl (growSpec cmp) [[]])
    rw [← ht, List.getElem?_append_left hk]
    exact hl
  obtain ⟨t, h1, h2⟩ := a.each k s l hs hl
  obtain ⟨t', h1', h2'⟩ := b.each k s l hs' hl'
  have := Holds.depth (h := st.1) h2
  have := Holds.depth (h := st.1) h2'
  have e : t.inorder = l := h2.elems
  have e' : t'.inorder = l := h2'.elems
  show readNodes fuel (later.foldl (grow cmp) st).1 s.root = _
  rw [readNodes_ok h1' (by omega), readNodes_ok h1 (by omega), e, e']

/-! ### Examples -/

/-- Nine sets, each with one element more; then elements are taken out of the ninth and of the fifth. -/
def demoOps : List (Nat × PersistentSet.Op Int) :=
  [(0, .add 5 false), (1, .add 3 false), (2, .add 8 false), (3, .add 1 false), (4, .add 4 false), (5, .add 7 false), (6, .add 9 false),
    (7, .add 2 false), (8, .add 6 false), (9, .remove 5), (9, .remove 3), (5, .remove 1), (1, .remove 5), (5, .remove 5)]

def demo : H Int × List Set := demoOps.foldl (grow PersistentSet.intCmp) (start, [⟨0, 0⟩])

example : demo.2.map (fun s => readNodes 10 demo.1 s.root) =
    [[], [5], [3, 5], [3, 5, 8], [1, 3, 5, 8], [1, 3, 4, 5, 8], [1, 3, 4, 5, 7, 8], [1, 3, 4, 5, 7, 8, 9], [1, 2, 3, 4, 5, 7, 8, 9],
      [1, 2, 3, 4, 5, 6, 7, 8, 9], [1, 2, 3, 4, 6, 7, 8, 9], [1, 2, 4, 5, 6, 7, 8, 9], [3, 4, 5, 8], [1, 3, 4, 8]] := by decide +kernel
example : demo.2.length = (demoOps.foldl (growSpec PersistentSet.intCmp) [[]]).length :=
  (versions_ok PersistentSet.intCmp_order demoOps).1

/-- The addition of a path writes to the nodes of the path, so it cannot be done twice. -/
def addTwice (s : Set) (h : H Int) (v : Int) : Option (List Int × List Int) :=
  match find PersistentSet.intCmp 10 h s v with
  | none => none
  | some (h, p) =>
    match addPath h p with
    | .error _ => none
    | .ok (h, a) =>
      match addPath h p with
      | .error _ => none
      | .ok (h, b) => some (readNodes 10 h a.root, readNodes 10 h b.root)

/-- The set of 3 and 5. -/
def pair : H Int × List Set := [(0, .add 5 false), (1, .add 3 false)].foldl (grow PersistentSet.intCmp) (start, [⟨0, 0⟩])

/-- With a path found once and added twice the second set is not the first: 1 and 3 are missing. -/
theorem path_once : (pair.2[2]?).bind (addTwice · pair.1 1) = some ([1, 3, 5], [5]) := by decide +kernel

end Avian.PersistentNodes
