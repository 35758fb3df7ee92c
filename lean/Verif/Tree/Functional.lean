import Verif.Tree.Model

/-
Pure counterpart of the pointer tree: trees, zippers, and the rebalancing step on them, with the
proofs that it keeps the in-order sequence and the red-black shape.  Used as the middle layer
between the heap model and the properties.
-/
namespace Avian.Tree

inductive T where
  | leaf
  | node (red : Bool) (l : T) (v : Method) (r : T)

namespace T

def isRed : T → Bool
  | leaf => false
  | node red _ _ _ => red

def black : T → T
  | leaf => leaf
  | node _ l v r => node false l v r

def inorder : T → List Method
  | leaf => []
  | node _ l v r => l.inorder ++ v :: r.inorder

def size : T → Nat
  | leaf => 0
  | node _ l _ r => l.size + r.size + 1

def depth : T → Nat
  | leaf => 0
  | node _ l _ r => max l.depth r.depth + 1

/-- Search following `compare`. -/
def find (key : Int) : T → Option Method
  | leaf => none
  | node _ l v r =>
    if compare key v < 0 then l.find key
    else if compare key v > 0 then r.find key
    else some v

end T

theorem isRed_node (red l v r) : (T.node red l v r).isRed = red := rfl

/-- One step of a path from a node to the root. -/
structure Frame where
  left : Bool
  red : Bool
  v : Method
  sib : T

def plug1 (t : T) (f : Frame) : T :=
  if f.left then .node f.red t f.v f.sib else .node f.red f.sib f.v t

def plug (t : T) : List Frame → T
  | [] => t
  | f :: fs => plug (plug1 t f) fs

/-- The path to the empty position for `key`; `none` if `key` is present or too deep. -/
def path (key : Int) : Nat → T → List Frame → Option (List Frame)
  | _, .leaf, fs => some fs
  | 0, .node _ _ _ _, _ => none
  | b + 1, .node red l v r, fs =>
    if compare key v < 0 then path key b l (⟨true, red, v, r⟩ :: fs)
    else if compare key v > 0 then path key b r (⟨false, red, v, l⟩ :: fs)
    else none

def recolor (t : T) (p g : Frame) : T :=
  plug1 (plug1 t { p with red := false }) { g with red := true, sib := g.sib.black }

def rotate (t : T) (p g : Frame) : T :=
  if g.left then
    if p.left then .node false t p.v (.node true p.sib g.v g.sib)
    else match t with
      | .leaf => .leaf
      | .node _ tl tv tr => .node false (.node p.red p.sib p.v tl) tv (.node true tr g.v g.sib)
  else
    if p.left then match t with
      | .leaf => .leaf
      | .node _ tl tv tr => .node false (.node true g.sib g.v tl) tv (.node p.red tr p.v p.sib)
    else .node false (.node true g.sib g.v p.sib) p.v t

def fix : T → List Frame → Option T
  | t, [] => some t
  | t, p :: rest =>
    if p.red then
      match rest with
      | [] => none
      | g :: rest' =>
        if g.sib.isRed then fix (recolor t p g) rest'
        else some (plug (rotate t p g) rest')
    else some (plug t (p :: rest))

def T.insert (t : T) (key : Int) (m : Method) : Option T := do
  let fs ← path key 100 t []
  let t' ← fix (.node true .leaf m .leaf) fs
  return t'.black

/-! ### In-order sequence -/

def before (fs : List Frame) : List Method :=
  match fs with
  | [] => []
  | f :: fs => before fs ++ (if f.left then [] else f.sib.inorder ++ [f.v])

def after (fs : List Frame) : List Method :=
  match fs with
  | [] => []
  | f :: fs => (if f.left then f.v :: f.sib.inorder else []) ++ after fs

theorem inorder_plug (t : T) (fs : List Frame) :
    (plug t fs).inorder = before fs ++ t.inorder ++ after fs := by
  induction fs generalizing t with
  | nil => simp [plug, before, after]
  | cons f fs ih =>
    rw [plug, ih]
    unfold plug1
    cases hf : f.left <;> simp [before, after, hf, T.inorder, List.append_assoc]

theorem inorder_black (t : T) : t.black.inorder = t.inorder := by cases t <;> rfl

theorem inorder_fix (t : T) (fs : List Frame) (t' : T) (ht : t.size > 0)
    (h : fix t fs = some t') : t'.inorder = before fs ++ t.inorder ++ after fs := by
  fun_induction fix t fs with
  | case1 t => cases h; simp [before, after]
  | case2 t p h1 => cases h
  | case3 t p h1 g rest' h2 ih =>
    have hs : (recolor t p g).size > 0 := by
      unfold recolor plug1
      cases p.left <;> cases g.left <;> simp [T.size]
    rw [ih hs h]
    unfold recolor plug1
    cases hp : p.left <;> cases hg : g.left <;>
      simp [before, after, hp, hg, T.inorder, inorder_black, List.append_assoc]
  | case4 t p h1 g rest' h2 =>
    cases h
    rw [inorder_plug]
    unfold rotate
    cases t with
    | leaf => simp [T.size] at ht
    | node tr tl tv trr =>
      cases hp : p.left <;> cases hg : g.left <;>
        simp [before, after, hp, hg, T.inorder, List.append_assoc]
  | case5 t p rest h1 => cases h; rw [inorder_plug]

/-! ### Ordering -/

/-- Compiled code ranges in increasing order, non-empty and disjoint. -/
def Sorted (l : List Method) : Prop :=
  l.Pairwise (fun a b : Method => a.start + a.size ≤ b.start) ∧ ∀ m ∈ l, 0 < m.size

/-- The code of `m` contains the address. -/
def Contains (m : Method) (ip : Int) : Prop := m.start ≤ ip ∧ ip < m.start + m.size

theorem compare_neg (ip : Int) (m : Method) : compare ip m < 0 ↔ ip < m.start := by
  unfold compare
  by_cases h : ip < m.start
  · simp [h]
  · by_cases h2 : ip < m.start + m.size <;> simp [h, h2]

theorem compare_pos (ip : Int) (m : Method) : compare ip m > 0 ↔ m.start + m.size ≤ ip := by
  unfold compare
  by_cases h : ip < m.start
  · simp [h]; omega
  · by_cases h2 : ip < m.start + m.size
    · simp [h, h2]
    · simp [h, h2]; omega

theorem Sorted.node_iff (l r : List Method) (v : Method) :
    Sorted (l ++ v :: r) ↔ Sorted l ∧ Sorted r ∧ 0 < v.size ∧
      (∀ a ∈ l, a.start + a.size ≤ v.start) ∧ (∀ b ∈ r, v.start + v.size ≤ b.start) ∧
      (∀ a ∈ l, ∀ b ∈ r, a.start + a.size ≤ b.start) := by
  unfold Sorted
  rw [List.pairwise_append]
  simp only [List.pairwise_cons, List.mem_cons, List.mem_append]
  constructor
  · rintro ⟨⟨h1, ⟨h2, h3⟩, h4⟩, h5⟩
    exact ⟨⟨h1, fun m hm => h5 m (Or.inl hm)⟩, ⟨h3, fun m hm => h5 m (Or.inr (Or.inr hm))⟩,
      h5 v (Or.inr (Or.inl rfl)), fun a ha => h4 a ha v (Or.inl rfl), h2,
      fun a ha b hb => h4 a ha b (Or.inr hb)⟩
  · rintro ⟨⟨h1, h1'⟩, ⟨h2, h2'⟩, h3, h4, h5, h6⟩
    refine ⟨⟨h1, ⟨h5, h2⟩, ?_⟩, ?_⟩
    · rintro a ha b (rfl | hb)
      · exact h4 a ha
      · exact h6 a ha b hb
    · rintro m (hm | rfl | hm)
      · exact h1' m hm
      · exact h3
      · exact h2' m hm

theorem find_iff (t : T) (hs : Sorted t.inorder) (ip : Int) (m : Method) :
    t.find ip = some m ↔ m ∈ t.inorder ∧ Contains m ip := by
  induction t with
  | leaf => simp [T.find, T.inorder]
  | node red l v r ihl ihr =>
    rw [T.inorder, Sorted.node_iff] at hs
    obtain ⟨hl, hr, hv, h1, h2, h3⟩ := hs
    simp only [T.find, compare_neg, compare_pos, T.inorder, List.mem_append, List.mem_cons]
    unfold Contains at *
    by_cases c1 : ip < v.start
    · rw [if_pos c1, ihl hl]
      constructor
      · rintro ⟨a, b⟩; exact ⟨Or.inl a, b⟩
      · rintro ⟨a | rfl | a, b⟩
        · exact ⟨a, b⟩
        · omega
        · have := h2 m a; omega
    · rw [if_neg c1]
      by_cases c2 : v.start + v.size ≤ ip
      · rw [if_pos c2, ihr hr]
        constructor
        · rintro ⟨a, b⟩; exact ⟨Or.inr (Or.inr a), b⟩
        · rintro ⟨a | rfl | a, b⟩
          · have := h1 m a; omega
          · omega
          · exact ⟨a, b⟩
      · rw [if_neg c2]
        constructor
        · intro h; cases h; exact ⟨Or.inr (Or.inl rfl), by omega⟩
        · rintro ⟨a | rfl | a, b⟩
          · have := h1 m a; omega
          · rfl
          · have := h2 m a; omega

/-- Descending with `compare` keeps the code before the hole below the key and the code after it
above the key. -/
theorem path_split (key : Int) (b : Nat) (t : T) (fs fs' : List Frame)
    (hs : Sorted (plug t fs).inorder)
    (hb : ∀ a ∈ before fs, a.start + a.size ≤ key) (ha : ∀ a ∈ after fs, key < a.start)
    (h : path key b t fs = some fs') :
    before fs' ++ after fs' = (plug t fs).inorder ∧
    (∀ a ∈ before fs', a.start + a.size ≤ key) ∧ (∀ a ∈ after fs', key < a.start) := by
  fun_induction path key b t fs with
  | case1 => cases h; rw [inorder_plug]; simp [T.inorder]; exact ⟨hb, ha⟩
  | case2 => cases h
  | case3 b red l v r fs hlt ih =>
    have e : plug (T.node red l v r) fs = plug l (⟨true, red, v, r⟩ :: fs) := by
      simp [plug, plug1]
    rw [e] at hs ⊢
    have hs' := hs
    rw [inorder_plug] at hs'
    have hlt' := (compare_neg key v).1 hlt
    refine ih hs ?_ ?_ h
    · simpa [before] using hb
    · simp only [after, if_true, List.mem_append, List.mem_cons]
      rintro a ((rfl | h1) | h1)
      · exact hlt'
      · simp only [after, if_true, List.cons_append] at hs'
        rw [Sorted.node_iff] at hs'
        have := hs'.2.2.2.2.1 a (by simp [h1])
        omega
      · exact ha a h1
  | case4 b red l v r fs h1 h2 ih =>
    have e : plug (T.node red l v r) fs = plug r (⟨false, red, v, l⟩ :: fs) := by
      simp [plug, plug1]
    rw [e] at hs ⊢
    have hs' := hs
    rw [inorder_plug] at hs'
    have hgt := (compare_pos key v).1 h2
    refine ih hs ?_ ?_ h
    · simp only [before, Bool.false_eq_true, if_false, List.mem_append, List.mem_singleton]
      rintro a (h1 | h1 | rfl)
      · exact hb a h1
      · simp only [before, Bool.false_eq_true, if_false] at hs'
        have e2 : before fs ++ (l.inorder ++ [v]) ++ r.inorder ++ after (⟨false, red, v, l⟩ :: fs)
          = (before fs ++ l.inorder) ++ v :: (r.inorder ++ after (⟨false, red, v, l⟩ :: fs)) := by
          simp
        rw [e2, Sorted.node_iff] at hs'
        have := hs'.2.2.2.1 a (by simp [h1])
        omega
      · exact hgt
    · simpa [after] using ha
  | case5 => cases h

/-- Insertion puts the new method at its place in the in-order sequence. -/
theorem insert_inorder (t : T) (m : Method) (hs : Sorted t.inorder) (t' : T)
    (h : t.insert m.start m = some t') :
    ∃ x y, t.inorder = x ++ y ∧ t'.inorder = x ++ m :: y ∧
      (∀ a ∈ x, a.start + a.size ≤ m.start) ∧ (∀ a ∈ y, m.start < a.start) := by
  unfold T.insert at h
  cases hp : path m.start 100 t [] with
  | none => simp [hp] at h
  | some fs =>
    cases hf : fix (.node true .leaf m .leaf) fs with
    | none => simp [hp, hf] at h
    | some t1 =>
      simp [hp, hf] at h
      obtain ⟨h1, h2, h3⟩ := path_split m.start 100 t [] fs hs
        (by intro a ha; cases ha) (by intro a ha; cases ha) hp
      have := inorder_fix _ _ _ (by simp [T.size]) hf
      refine ⟨before fs, after fs, h1.symm, ?_, h2, h3⟩
      rw [← h, inorder_black, this]
      simp [T.inorder]

/-! ### Red-black shape -/

/-- Red-black trees of black height `n`. -/
def RB : T → Nat → Prop
  | .leaf, n => n = 0
  | .node true l _ r, n => RB l n ∧ RB r n ∧ l.isRed = false ∧ r.isRed = false
  | .node false l _ r, n => ∃ k, n = k + 1 ∧ RB l k ∧ RB r k

/-- A path that forms a red-black tree with a black root around a black tree of height `n`. -/
def CtxOK : List Frame → Nat → Prop
  | [], _ => True
  | f :: fs, n =>
    RB f.sib n ∧
    if f.red then f.sib.isRed = false ∧ (∃ g gs, fs = g :: gs ∧ g.red = false) ∧ CtxOK fs n
    else CtxOK fs (n + 1)

theorem RB_black_red (t : T) (n : Nat) (h : RB t n) (hr : t.isRed = true) : RB t.black (n + 1) := by
  cases t with
  | leaf => simp [T.isRed] at hr
  | node red l v r =>
    simp only [T.isRed] at hr
    subst hr
    simp only [RB, T.black] at h ⊢
    exact ⟨n, rfl, h.1, h.2.1⟩

theorem isRed_black (t : T) : t.black.isRed = false := by cases t <;> rfl

theorem RB_plug (t : T) (fs : List Frame) (n : Nat) (ht : RB t n) (hb : t.isRed = false)
    (hc : CtxOK fs n) : ∃ k, RB (plug t fs) k ∧ (plug t fs).isRed = false := by
  have main : ∀ (fs : List Frame) (t : T) (n : Nat), RB t n → CtxOK fs n →
      (t.isRed = true → ∃ g gs, fs = g :: gs ∧ g.red = false) →
      ∃ k, RB (plug t fs) k ∧ (plug t fs).isRed = false := by
    intro fs
    induction fs with
    | nil =>
      intro t n ht _ hr
      refine ⟨n, ht, ?_⟩
      cases hq : t.isRed with
      | false => exact hq
      | true => obtain ⟨_, _, h, _⟩ := hr hq; cases h
    | cons f fs ih =>
      intro t n ht hc hr
      rw [plug]
      obtain ⟨hs, hc⟩ := hc
      cases hf : f.red with
      | true =>
        rw [hf, if_pos rfl] at hc
        have hb : t.isRed = false := by
          cases hq : t.isRed with
          | false => rfl
          | true =>
            obtain ⟨g, gs, h, hg⟩ := hr hq
            cases h; rw [hf] at hg; cases hg
        apply ih (plug1 t f) n _ hc.2.2
        · intro _; exact hc.2.1
        · unfold plug1
          cases hl : f.left <;> simp [RB, hf, ht, hs, hc.1, hb]
      | false =>
        rw [hf, if_neg (by simp)] at hc
        apply ih (plug1 t f) (n + 1) _ hc
        · intro h
          unfold plug1 at h
          cases hl : f.left <;> simp [hl, hf, T.isRed] at h
        · unfold plug1
          cases hl : f.left <;> simp [RB, hf, ht, hs]
  exact main fs t n ht hc (by rw [hb]; intro h; cases h)

theorem RB_fix (t : T) (fs : List Frame) (n : Nat) (ht : RB t n) (hr : t.isRed = true)
    (hc : CtxOK fs n) : ∃ t', fix t fs = some t' ∧ ∃ k, RB t'.black k := by
  fun_induction fix t fs generalizing n with
  | case1 t => exact ⟨t, rfl, _, RB_black_red t n ht hr⟩
  | case2 t p h1 =>
    obtain ⟨hs, hc⟩ := hc
    rw [h1, if_pos rfl] at hc
    obtain ⟨_, ⟨g, gs, h, _⟩, _⟩ := hc
    cases h
  | case3 t p h1 g rest' h2 ih =>
    obtain ⟨hs, hc⟩ := hc
    rw [h1, if_pos rfl] at hc
    obtain ⟨hsib, ⟨g', gs', he, hg⟩, hgs, hc⟩ := hc
    cases he
    rw [hg, if_neg (by simp)] at hc
    have hu := RB_black_red g.sib n hgs h2
    apply ih (n + 1) _ _ hc
    · unfold recolor plug1
      cases hp : p.left <;> cases hgl : g.left <;>
        simp [RB, ht, hs, hu, isRed_black, isRed_node]
    · unfold recolor plug1
      cases hgl : g.left <;> simp [T.isRed]
  | case4 t p h1 g rest' h2 =>
    obtain ⟨hs, hc⟩ := hc
    rw [h1, if_pos rfl] at hc
    obtain ⟨hsib, ⟨g', gs', he, hg⟩, hgs, hc⟩ := hc
    cases he
    rw [hg, if_neg (by simp)] at hc
    have h2' : g.sib.isRed = false := by simpa using h2
    have hrot : RB (rotate t p g) (n + 1) ∧ (rotate t p g).isRed = false := by
      cases t with
      | leaf => simp [T.isRed] at hr
      | node tred tl tv tr =>
        simp only [T.isRed] at hr
        subst hr
        simp only [RB] at ht
        unfold rotate
        cases hp : p.left <;> cases hgl : g.left <;>
          simp [RB, isRed_node, ht, hs, hgs, hsib, h2', h1]
    obtain ⟨k, hk, hkb⟩ := RB_plug _ _ _ hrot.1 hrot.2 hc
    refine ⟨_, rfl, k, ?_⟩
    cases hq : plug (rotate t p g) rest' with
    | leaf => rw [hq] at hk; exact hk
    | node red l v r =>
      rw [hq] at hk hkb
      simp only [T.isRed] at hkb
      subst hkb
      exact hk
  | case5 t p rest h1 =>
    refine ⟨_, rfl, ?_⟩
    obtain ⟨hs, hc⟩ := hc
    have h1' : p.red = false := by simpa using h1
    rw [h1', if_neg (by simp)] at hc
    rw [plug]
    have hp1 : RB (plug1 t p) (n + 1) ∧ (plug1 t p).isRed = false := by
      unfold plug1
      cases hl : p.left <;> simp [RB, T.isRed, h1', ht, hs]
    obtain ⟨k, hk, hkb⟩ := RB_plug _ rest _ hp1.1 hp1.2 hc
    refine ⟨k, ?_⟩
    cases hq : plug (plug1 t p) rest with
    | leaf => rw [hq] at hk; exact hk
    | node red l v r =>
      rw [hq] at hk hkb
      simp only [T.isRed] at hkb
      subst hkb
      exact hk

theorem path_CtxOK (key : Int) (b : Nat) (t : T) (fs fs' : List Frame) (n : Nat) (ht : RB t n)
    (hc : CtxOK fs n) (hr : t.isRed = true → ∃ g gs, fs = g :: gs ∧ g.red = false)
    (h : path key b t fs = some fs') : CtxOK fs' 0 := by
  fun_induction path key b t fs generalizing n with
  | case1 => cases h; simp only [RB] at ht; subst ht; exact hc
  | case2 => cases h
  | case3 b red l v r fs hlt ih =>
    cases red with
    | true =>
      simp only [RB] at ht
      refine ih n ht.1 ⟨ht.2.1, ?_⟩ ?_ h
      · rw [if_pos rfl]; exact ⟨ht.2.2.2, hr rfl, hc⟩
      · rw [ht.2.2.1]; intro h; cases h
    | false =>
      simp only [RB] at ht
      obtain ⟨k, rfl, h1, h2⟩ := ht
      refine ih k h1 ⟨h2, ?_⟩ ?_ h
      · rw [if_neg (by simp)]; exact hc
      · intro _; exact ⟨_, _, rfl, rfl⟩
  | case4 b red l v r fs hlt _ ih =>
    cases red with
    | true =>
      simp only [RB] at ht
      refine ih n ht.2.1 ⟨ht.1, ?_⟩ ?_ h
      · rw [if_pos rfl]; exact ⟨ht.2.2.1, hr rfl, hc⟩
      · rw [ht.2.2.2]; intro h; cases h
    | false =>
      simp only [RB] at ht
      obtain ⟨k, rfl, h1, h2⟩ := ht
      refine ih k h2 ⟨h1, ?_⟩ ?_ h
      · rw [if_neg (by simp)]; exact hc
      · intro _; exact ⟨_, _, rfl, rfl⟩
  | case5 => cases h

theorem RB_size (t : T) (n : Nat) (h : RB t n) : 2 ^ n ≤ t.size + 1 := by
  induction t generalizing n with
  | leaf => simp only [RB] at h; subst h; simp [T.size]
  | node red l v r ihl ihr =>
    cases red with
    | true =>
      simp only [RB] at h
      have := ihl n h.1
      simp only [T.size]; omega
    | false =>
      simp only [RB] at h
      obtain ⟨k, rfl, h1, h2⟩ := h
      have := ihl k h1
      have := ihr k h2
      simp only [T.size, Nat.pow_succ]; omega

theorem RB_depth (t : T) (n : Nat) (h : RB t n) :
    t.depth ≤ 2 * n + (if t.isRed then 1 else 0) := by
  induction t generalizing n with
  | leaf => simp [T.depth]
  | node red l v r ihl ihr =>
    cases red with
    | true =>
      simp only [RB] at h
      have h1 := ihl n h.1
      have h2 := ihr n h.2.1
      rw [h.2.2.1] at h1
      rw [h.2.2.2] at h2
      simp only [T.depth, T.isRed, if_true, Bool.false_eq_true, if_false] at *
      omega
    | false =>
      simp only [RB] at h
      obtain ⟨k, rfl, h1, h2⟩ := h
      have h1 := ihl k h1
      have h2 := ihr k h2
      have e1 : (if l.isRed then 1 else 0) ≤ 1 := by split <;> omega
      have e2 : (if r.isRed then 1 else 0) ≤ 1 := by split <;> omega
      simp only [T.depth, T.isRed, Bool.false_eq_true, if_false] at *
      omega

theorem path_exists (key : Int) (b : Nat) (t : T) (fs : List Frame) (hd : t.depth ≤ b)
    (hn : t.find key = none) : ∃ fs', path key b t fs = some fs' := by
  fun_induction path key b t fs with
  | case1 => exact ⟨_, rfl⟩
  | case2 => simp [T.depth] at hd
  | case3 b red l v r fs hlt ih =>
    simp only [T.find, if_pos hlt, T.depth] at hn hd
    exact ih (by omega) hn
  | case4 b red l v r fs h1 h2 ih =>
    simp only [T.find, if_neg h1, if_pos h2, T.depth] at hn hd
    exact ih (by omega) hn
  | case5 b red l v r fs h1 h2 => simp [T.find, if_neg h1, if_neg h2] at hn

end Avian.Tree
