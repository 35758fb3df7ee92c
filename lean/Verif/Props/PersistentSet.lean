import Verif.Lib.PersistentSetLemmas
import Verif.Lib.Outcome

/-
C81: sorted sets are what they were at any time: adding and removing give sorted sets of the right elements, and they
stay shallow.
-/
namespace Avian.PersistentSet

variable {α : Type}

/-! ### Specification -/

/-- What is asked of a comparator: the order of any two does not depend on which is asked first, and not greater is
transitive. -/
structure Order (cmp : α → α → Int) : Prop where
  flip : ∀ a b, cmp a b < 0 ↔ 0 < cmp b a
  trans : ∀ a b c, cmp a b ≤ 0 → cmp b c ≤ 0 → cmp a c ≤ 0

/-- Strictly increasing. -/
def Sorted (cmp : α → α → Int) (l : List α) : Prop := l.Pairwise (fun a b => cmp a b < 0)

/-- `v` among the elements: in the place of the one equal to it, or between the smaller and the greater ones. -/
def putSpec (cmp : α → α → Int) (v : α) (l : List α) : List α :=
  l.filter (fun x => 0 < cmp v x) ++ v :: l.filter (fun x => cmp v x < 0)

/-- The elements not equal to `v`. -/
def eraseSpec (cmp : α → α → Int) (v : α) (l : List α) : List α := l.filter (fun x => cmp v x ≠ 0)

/-- The element equal to `v`. -/
def findSpec (cmp : α → α → Int) (v : α) (l : List α) : Option α := l.find? (fun x => cmp v x = 0)

/-- The set has these elements, in this order. -/
structure Rep (cmp : α → α → Int) (s : PSet α) (l : List α) : Prop where
  elems : s.root.inorder = l
  sorted : Sorted cmp l
  size : s.size = l.length
  shape : ∃ k, RB s.root k
  black : s.root.isRed = false

/-! ### Comparators -/

theorem Order.lt_le {cmp : α → α → Int} (o : Order cmp) {a b c : α} (h1 : cmp a b < 0) (h2 : cmp b c ≤ 0) : cmp a c < 0 := by
  have f1 := o.flip a b
  have f2 := o.flip a c
  have t := o.trans b c a
  omega

theorem Order.le_lt {cmp : α → α → Int} (o : Order cmp) {a b c : α} (h1 : cmp a b ≤ 0) (h2 : cmp b c < 0) : cmp a c < 0 := by
  have f1 := o.flip b c
  have f2 := o.flip a c
  have t := o.trans c a b
  omega

theorem Order.eq_symm {cmp : α → α → Int} (o : Order cmp) {a b : α} (h : cmp a b = 0) : cmp b a = 0 := by
  have f1 := o.flip a b
  have f2 := o.flip b a
  omega

theorem sorted_node {cmp : α → α → Int} {l r : List α} {v : α} (h : Sorted cmp (l ++ v :: r)) :
    Sorted cmp l ∧ Sorted cmp r ∧ (∀ a ∈ l, cmp a v < 0) ∧ (∀ b ∈ r, cmp v b < 0) ∧ ∀ a ∈ l, ∀ b ∈ r, cmp a b < 0 := by
  unfold Sorted at *
  rw [List.pairwise_append, List.pairwise_cons] at h
  exact ⟨h.1, h.2.1.2, fun a ha => h.2.2 a ha v (by simp), h.2.1.1, fun a ha b hb => h.2.2 a ha b (by simp [hb])⟩

/-! ### Paths -/

/-- The elements left of the node of a path. -/
def Path.before (p : Path α) : List α := PersistentSet.before p.above ++ p.l.inorder

/-- The elements right of the node of a path. -/
def Path.after (p : Path α) : List α := p.r.inorder ++ PersistentSet.after p.above

theorem Path.inorder (p : Path α) : p.root.root.inorder = p.before ++ p.v :: p.after := by
  unfold Path.root Path.before Path.after Path.node
  rw [inorder_plug]
  simp [T.inorder, List.append_assoc]

/-- What `find` gives. -/
structure Found (cmp : α → α → Int) (v : α) (size : Int) (t : T α) (q : Path α) : Prop where
  count : q.size = size
  hit : q.fresh = false → plug q.node q.above = t ∧ cmp v q.v = 0 ∧ Good q.node q.above
  miss : q.fresh = true → q = ⟨true, false, .leaf, v, .leaf, q.above, size⟩ ∧
    PersistentSet.before q.above ++ PersistentSet.after q.above = t.inorder ∧
    (∀ a ∈ PersistentSet.before q.above, 0 < cmp v a) ∧ (∀ a ∈ PersistentSet.after q.above, cmp v a < 0) ∧ CtxOK q.above 0

theorem findLoop_ok {cmp : α → α → Int} (o : Order cmp) (v : α) (size : Int) (t : T α) (fs : List (Frame α))
    (hs : Sorted cmp (plug t fs).inorder)
    (hb : ∀ a ∈ before fs, 0 < cmp v a) (ha : ∀ a ∈ after fs, cmp v a < 0) (hg : Good t fs) :
    Found cmp v size (plug t fs) (findLoop cmp v size t fs) := by
  fun_induction findLoop cmp v size t fs with
  | case1 fs =>
    refine ⟨rfl, fun h => (by cases h), fun _ => ⟨rfl, ?_, hb, ha, ?_⟩⟩
    · rw [inorder_plug]; simp [T.inorder]
    · obtain ⟨n, h1, h2, _⟩ := hg
      simp only [RB] at h1; subst h1; exact h2
  | case2 red l x r fs hlt ih =>
    have e : plug (T.node red l x r) fs = plug l (⟨true, red, x, r⟩ :: fs) := by simp [plug, plug1, mk]
    rw [e] at hs ⊢
    have hs' := hs
    rw [inorder_plug] at hs'
    refine ih hs ?_ ?_ (good_left hg)
    · simpa [before] using hb
    · simp only [after, if_true, List.mem_append, List.mem_cons]
      rintro a ((rfl | h1) | h1)
      · exact hlt
      · simp only [after, if_true, List.cons_append] at hs'
        have := (sorted_node hs').2.2.2.1 a (by simp [h1])
        exact o.lt_le hlt (by omega)
      · exact ha a h1
  | case3 red l x r fs h1 h2 ih =>
    have e : plug (T.node red l x r) fs = plug r (⟨false, red, x, l⟩ :: fs) := by simp [plug, plug1, mk]
    rw [e] at hs ⊢
    have hs' := hs
    rw [inorder_plug] at hs'
    refine ih hs ?_ ?_ (good_right hg)
    · simp only [before, Bool.false_eq_true, if_false, List.mem_append, List.mem_singleton]
      rintro a (h3 | h3 | rfl)
      · exact hb a h3
      · simp only [before, Bool.false_eq_true, if_false] at hs'
        have e2 : before fs ++ (l.inorder ++ [x]) ++ r.inorder ++ after (⟨false, red, x, l⟩ :: fs)
          = (before fs ++ l.inorder) ++ x :: (r.inorder ++ after (⟨false, red, x, l⟩ :: fs)) := by simp
        rw [e2] at hs'
        have h4 := (sorted_node hs').2.2.1 a (by simp [h3])
        have h5 := (o.flip x v).2 (by omega)
        exact (o.flip a v).1 (o.lt_le h4 (by omega))
      · omega
    · simpa [after] using ha
  | case4 red l x r fs h1 h2 =>
    exact ⟨rfl, fun _ => ⟨rfl, by show cmp v x = 0; omega, hg⟩, fun h => by cases h⟩

theorem find_ok {cmp : α → α → Int} (o : Order cmp) {s : PSet α} {l : List α} (h : Rep cmp s l) (v : α) :
    Found cmp v s.size s.root (find cmp s v) := by
  obtain ⟨k, hk⟩ := h.shape
  exact findLoop_ok o v s.size s.root [] (by rw [plug, h.elems]; exact h.sorted) (by intro a ha; cases ha)
    (by intro a ha; cases ha) (good_nil hk h.black)

/-- An element found is there. -/
theorem find_hit {cmp : α → α → Int} (o : Order cmp) {s : PSet α} {l : List α} (h : Rep cmp s l) (v : α)
    (hf : (find cmp s v).fresh = false) :
    l = (find cmp s v).before ++ (find cmp s v).v :: (find cmp s v).after ∧ cmp v (find cmp s v).v = 0 ∧
      Good (find cmp s v).node (find cmp s v).above ∧ (find cmp s v).size = l.length := by
  have hq := find_ok o h v
  have hh := hq.hit hf
  refine ⟨?_, hh.2.1, hh.2.2, by rw [hq.count, h.size]⟩
  rw [← Path.inorder]
  unfold Path.root
  rw [hh.1, h.elems]

/-- The elements equal to `v` in a sorted list. -/
theorem eq_only {cmp : α → α → Int} (o : Order cmp) {a b : List α} {x v : α} (hs : Sorted cmp (a ++ x :: b)) (hx : cmp v x = 0) :
    (∀ y ∈ a, 0 < cmp v y) ∧ (∀ y ∈ b, cmp v y < 0) := by
  have h := sorted_node hs
  constructor
  · intro y hy
    have h1 := h.2.2.1 y hy
    have h2 := o.eq_symm hx
    exact (o.flip y v).1 (o.lt_le h1 (by omega))
  · intro y hy
    have h1 := h.2.2.2.1 y hy
    exact o.le_lt (by omega) h1

theorem filter_all {p : α → Bool} {l : List α} (h : ∀ x ∈ l, p x = true) : l.filter p = l := List.filter_eq_self.2 h

theorem filter_none {p : α → Bool} {l : List α} (h : ∀ x ∈ l, p x = false) : l.filter p = [] := by
  rw [List.filter_eq_nil_iff]
  intro x hx; rw [h x hx]; simp

theorem putSpec_split {cmp : α → α → Int} {a b : List α} {v : α} (ha : ∀ y ∈ a, 0 < cmp v y) (hb : ∀ y ∈ b, cmp v y < 0) :
    putSpec cmp v (a ++ b) = a ++ v :: b := by
  unfold putSpec
  rw [List.filter_append, List.filter_append, filter_all (l := a) (by intro x hx; simpa using ha x hx),
    filter_none (l := b) (by intro x hx; have := hb x hx; simp; omega),
    filter_none (l := a) (by intro x hx; have := ha x hx; simp; omega),
    filter_all (l := b) (by intro x hx; simpa using hb x hx)]
  simp

theorem putSpec_hit {cmp : α → α → Int} {a b : List α} {v x : α} (ha : ∀ y ∈ a, 0 < cmp v y) (hb : ∀ y ∈ b, cmp v y < 0)
    (hx : cmp v x = 0) : putSpec cmp v (a ++ x :: b) = a ++ v :: b := by
  rw [← putSpec_split ha hb]
  unfold putSpec
  simp [List.filter_append, List.filter_cons, hx]

theorem eraseSpec_hit {cmp : α → α → Int} {a b : List α} {v x : α} (ha : ∀ y ∈ a, 0 < cmp v y) (hb : ∀ y ∈ b, cmp v y < 0)
    (hx : cmp v x = 0) : eraseSpec cmp v (a ++ x :: b) = a ++ b := by
  unfold eraseSpec
  rw [List.filter_append, List.filter_cons, if_neg (by simp [hx]), filter_all (l := a) (by intro y hy; have := ha y hy; simp; omega),
    filter_all (l := b) (by intro y hy; have := hb y hy; simp; omega)]

theorem sorted_put {cmp : α → α → Int} (o : Order cmp) {a b : List α} {v : α} (hs : Sorted cmp (a ++ b))
    (ha : ∀ y ∈ a, 0 < cmp v y) (hb : ∀ y ∈ b, cmp v y < 0) : Sorted cmp (a ++ v :: b) := by
  unfold Sorted at *
  rw [List.pairwise_append] at hs ⊢
  refine ⟨hs.1, List.pairwise_cons.2 ⟨hb, hs.2.1⟩, ?_⟩
  intro x hx y hy
  rcases List.mem_cons.1 hy with rfl | hy
  · exact (o.flip x y).2 (ha x hx)
  · exact hs.2.2 x hx y hy

theorem findSpec_hit {cmp : α → α → Int} {a b : List α} {v x : α} (ha : ∀ y ∈ a, 0 < cmp v y) (hx : cmp v x = 0) :
    findSpec cmp v (a ++ x :: b) = some x := by
  unfold findSpec
  rw [List.find?_append, List.find?_eq_none.2 (by intro y hy; have := ha y hy; simp; omega)]
  simp [hx]

theorem findSpec_miss {cmp : α → α → Int} {a b : List α} {v : α} (ha : ∀ y ∈ a, 0 < cmp v y) (hb : ∀ y ∈ b, cmp v y < 0) :
    findSpec cmp v (a ++ b) = none := by
  unfold findSpec
  rw [List.find?_eq_none]
  intro y hy
  rcases List.mem_append.1 hy with h | h
  · have := ha y h; simp; omega
  · have := hb y h; simp; omega

/-! ### Finding, adding and removing -/

/-- `find` says whether there is an element equal to the value, and which. -/
theorem find_spec {cmp : α → α → Int} (o : Order cmp) {s : PSet α} {l : List α} (h : Rep cmp s l) (v : α) :
    findSpec cmp v l = if (find cmp s v).fresh then none else some (find cmp s v).v := by
  have hq := find_ok o h v
  cases hf : (find cmp s v).fresh with
  | false =>
    obtain ⟨e, hv, _⟩ := find_hit o h v hf
    have hs := h.sorted
    rw [e] at hs
    have hb := eq_only o hs hv
    rw [if_neg (by simp)]
    conv => lhs; rw [e]
    exact findSpec_hit hb.1 hv
  | true =>
    obtain ⟨_, e, h1, h2, _⟩ := hq.miss hf
    rw [if_pos rfl, ← h.elems, ← e]
    exact findSpec_miss h1 h2

/-- `add` at a path where nothing was found. -/
theorem addPath_ok {cmp : α → α → Int} (o : Order cmp) {s : PSet α} {l : List α} (h : Rep cmp s l) (v : α)
    (hf : (find cmp s v).fresh = true) : ∃ s', addPath (find cmp s v) = .ok s' ∧ Rep cmp s' (putSpec cmp v l) := by
  obtain ⟨e, ei, h1, h2, hc⟩ := (find_ok o h v).miss hf
  generalize hq : (find cmp s v) = q at *
  have hfix := good_fix (.node true .leaf v .leaf) q.above 0 (by simp [RB, T.isRed]) rfl hc
  obtain ⟨t', ht, k, hk⟩ := hfix
  have hin := inorder_fix _ _ _ (by rfl) ht
  have ep : q.l = .leaf ∧ q.v = v ∧ q.r = .leaf ∧ q.size = s.size := by rw [e]; exact ⟨rfl, rfl, rfl, rfl⟩
  unfold addPath
  rw [if_pos hf, ep.1, ep.2.1, ep.2.2.1, ht]
  refine ⟨_, rfl, ?_⟩
  have el : l = before q.above ++ after q.above := by rw [ei, h.elems]
  have hs := h.sorted
  rw [el] at hs
  refine ⟨?_, ?_, ?_, ⟨k, hk⟩, isRed_paint _⟩
  · show (t'.paint false).inorder = _
    rw [inorder_paint, hin, el, putSpec_split h1 h2]
    simp [T.inorder]
  · rw [el, putSpec_split h1 h2]
    exact sorted_put o hs h1 h2
  · show q.size + 1 = _
    rw [ep.2.2.2, h.size, el, putSpec_split h1 h2]
    simp only [List.length_append, List.length_cons]
    omega

/-- `replaceWith` at a path where an equal element was found. -/
theorem replaceWith_ok {cmp : α → α → Int} (o : Order cmp) {s : PSet α} {l : List α} (h : Rep cmp s l) (v : α)
    (hf : (find cmp s v).fresh = false) :
    ∃ s', (find cmp s v).replaceWith cmp v = .ok s' ∧ Rep cmp s' (putSpec cmp v l) := by
  obtain ⟨e, hv, hg, hsz⟩ := find_hit o h v hf
  generalize hq : (find cmp s v) = q at *
  have hs := h.sorted
  rw [e] at hs
  have hb := eq_only o hs hv
  unfold Path.replaceWith
  rw [if_neg (by rw [hf]; simp), if_neg (by have := o.eq_symm hv; omega)]
  refine ⟨_, rfl, ?_⟩
  have ei := Path.inorder ({ q with v := v } : Path α)
  have hgv : Good ({ q with v := v } : Path α).node q.above := good_value hg
  obtain ⟨k, hk1, hk2⟩ := good_plug hgv
  have hsab : Sorted cmp (q.before ++ q.after) := by
    unfold Sorted at hs ⊢
    rw [List.pairwise_append] at hs ⊢
    exact ⟨hs.1, (List.pairwise_cons.1 hs.2.1).2, fun a ha b hb => hs.2.2 a ha b (by simp [hb])⟩
  refine ⟨?_, ?_, ?_, ⟨k, hk1⟩, hk2⟩
  · rw [ei]
    conv => rhs; rw [e]
    rw [putSpec_hit hb.1 hb.2 hv]
    rfl
  · rw [e, putSpec_hit hb.1 hb.2 hv]
    exact sorted_put o hsab hb.1 hb.2
  · show q.size = _
    rw [hsz, e, putSpec_hit hb.1 hb.2 hv]
    simp only [List.length_append, List.length_cons]

/-- Adding: an equal element stays, or is replaced if that is asked for. -/
theorem add_ok {cmp : α → α → Int} (o : Order cmp) {s : PSet α} {l : List α} (h : Rep cmp s l) (v : α) (rep : Bool) :
    ∃ s', add cmp s v rep = .ok s' ∧
      Rep cmp s' (if (findSpec cmp v l).isSome && !rep then l else putSpec cmp v l) := by
  have hsp := find_spec o h v
  unfold add
  simp only
  cases hf : (find cmp s v).fresh with
  | true =>
    rw [hf, if_pos rfl] at hsp
    rw [hsp, if_neg (by simp)]
    exact addPath_ok o h v hf
  | false =>
    rw [hf, if_neg (by simp)] at hsp
    rw [hsp, if_pos (by simp)]
    cases rep with
    | false => rw [if_neg (by simp)]; exact ⟨s, rfl, h⟩
    | true => rw [if_pos rfl]; exact replaceWith_ok o h v hf

theorem minLoop_above (fresh : Bool) (size : Int) (red : Bool) (l : T α) (v : α) (r : T α) (fs : List (Frame α)) :
    minLoop fresh size red l v r fs =
      { minLoop fresh size red l v r [] with above := (minLoop fresh size red l v r []).above ++ fs } := by
  induction l generalizing red v r fs with
  | leaf => rfl
  | node lred ll lv lr ih _ =>
    simp only [minLoop]
    rw [ih lred lv lr (⟨true, red, v, r⟩ :: fs), ih lred lv lr [⟨true, red, v, r⟩]]
    simp

theorem minLoop_ok (fresh : Bool) (size : Int) (red : Bool) (l : T α) (v : α) (r : T α) (fs : List (Frame α)) :
    (minLoop fresh size red l v r fs).l = .leaf ∧ (minLoop fresh size red l v r fs).size = size ∧
    (minLoop fresh size red l v r fs).fresh = fresh ∧
    plug (minLoop fresh size red l v r fs).node (minLoop fresh size red l v r fs).above = plug (.node red l v r) fs ∧
    (minLoop fresh size red l v r fs).before = before fs ∧
    (Good (.node red l v r) fs → Good (minLoop fresh size red l v r fs).node (minLoop fresh size red l v r fs).above) := by
  induction l generalizing red v r fs with
  | leaf =>
    exact ⟨rfl, rfl, rfl, rfl, by simp [minLoop, Path.before, T.inorder], fun h => h⟩
  | node lred ll lv lr ih _ =>
    simp only [minLoop]
    obtain ⟨h1, h2, h3, h4, h5, h6⟩ := ih lred lv lr (⟨true, red, v, r⟩ :: fs)
    exact ⟨h1, h2, h3, by rw [h4]; simp [plug, plug1, mk], by rw [h5]; simp [before], fun h => h6 (good_left h)⟩

/-- The node taken out has no left or no right subtree; without it the elements are the others. -/
theorem dead_ok (p : Path α) (hg : Good p.node p.above) :
    ((dead p).l = .leaf ∨ (dead p).r = .leaf) ∧ Good (dead p).node (dead p).above ∧
    (dead p).before ++ (dead p).after = p.before ++ p.after := by
  unfold dead
  by_cases hl : p.l.isLeaf = true ∨ p.r.isLeaf = true
  · rw [if_pos (by simpa using hl)]
    refine ⟨?_, hg, rfl⟩
    rcases hl with h | h
    · left; cases hq : p.l <;> simp [hq, T.isLeaf] at h ⊢
    · right; cases hq : p.r <;> simp [hq, T.isLeaf] at h ⊢
  · rw [if_neg (by simpa using hl)]
    cases hr : p.r with
    | leaf => exact absurd (by rw [hr]; simp [T.isLeaf]) hl
    | node rred rl rv rr =>
      simp only
      have h0 := minLoop_ok false p.size rred rl rv rr []
      generalize hd : minLoop false p.size rred rl rv rr [] = d at *
      have ha := minLoop_above false p.size rred rl rv rr (⟨false, p.red, d.v, p.l⟩ :: p.above)
      have h1 := minLoop_ok false p.size rred rl rv rr (⟨false, p.red, d.v, p.l⟩ :: p.above)
      rw [hd] at ha
      rw [ha] at h1
      refine ⟨Or.inl h0.1, ?_, ?_⟩
      · refine h1.2.2.2.2.2 ?_
        have : Good (.node p.red p.l d.v p.r) p.above := good_value hg
        rw [hr] at this
        exact good_right this
      · have e1 := h1.2.2.2.2.1
        rw [e1]
        have e2 := Path.inorder d
        have e3 : d.root.root.inorder = (T.node rred rl rv rr).inorder := by
          unfold Path.root
          rw [h0.2.2.2.1]; rfl
        rw [e3] at e2
        have e4 : d.before = [] := by rw [h0.2.2.2.2.1]; rfl
        rw [e4] at e2
        simp only [before, Path.after, after_append, after, Path.before, hr, e2]
        simp [List.append_assoc, Path.after]

/-- Removing the node of a path. -/
theorem removePath_ok {cmp : α → α → Int} (own : Bool) (p : Path α) (hs : Sorted cmp (p.before ++ p.v :: p.after))
    (hg : Good p.node p.above) (hsz : p.size = (p.before ++ p.v :: p.after).length) (ho : own = true ∨ p.size ≠ 1) :
    ∃ s', removePath own p = .ok s' ∧ Rep cmp s' (p.before ++ p.after) := by
  have hsab : Sorted cmp (p.before ++ p.after) := by
    unfold Sorted at hs ⊢
    rw [List.pairwise_append] at hs ⊢
    exact ⟨hs.1, (List.pairwise_cons.1 hs.2.1).2, fun a ha b hb => hs.2.2 a ha b (by simp [hb])⟩
  have hlen : (p.before ++ p.v :: p.after).length = (p.before ++ p.after).length + 1 := by
    simp only [List.length_append, List.length_cons]; omega
  unfold removePath
  by_cases h1 : p.size = 1
  · rw [if_pos h1]
    have hn : p.before ++ p.after = [] := by
      apply List.eq_nil_of_length_eq_zero; omega
    have hab : p.above = [] := by
      rw [List.append_eq_nil_iff] at hn
      unfold Path.before Path.after at hn
      simp only [List.append_eq_nil_iff] at hn
      cases hq : p.above with
      | nil => rfl
      | cons f fs =>
        rw [hq] at hn
        simp only [before, after, List.append_eq_nil_iff] at hn
        cases hl : f.left <;> rw [hl] at hn <;> simp at hn
    have hown : own = true := by rcases ho with h | h; exact h; exact absurd h1 h
    rw [if_pos (by simp [hown, hab])]
    exact ⟨_, rfl, by rw [hn]; rfl, hsab, by rw [hn]; rfl, ⟨0, rfl⟩, rfl⟩
  · rw [if_neg h1]
    obtain ⟨hd1, hd2, hd3⟩ := dead_ok p hg
    generalize dead p = d at *
    simp only
    have hchild : ∃ c, (if d.l.isLeaf then d.r else d.l) = c ∧ c.inorder = d.l.inorder ++ d.r.inorder := ⟨_, rfl, by
      rcases hd1 with h | h
      · rw [h]; simp [T.isLeaf, T.inorder]
      · rw [h]; cases hq : d.l <;> simp [T.isLeaf, T.inorder]⟩
    obtain ⟨n, hRB, hctx, hred⟩ := hd2
    have hkids : ∃ k, RB (if d.l.isLeaf then d.r else d.l) k ∧
        (d.red = true → k = n ∧ (if d.l.isLeaf then d.r else d.l).isRed = false) ∧ (d.red = false → n = k + 1) := by
      obtain ⟨k, a1, a2, a3, a4⟩ := RB_near hRB
      refine ⟨k, by split <;> assumption, fun h => ⟨(a3 h).1, by split; exact (a3 h).2.2; exact (a3 h).2.1⟩, a4⟩
    obtain ⟨c, hc, hci⟩ := hchild
    rw [hc] at hkids ⊢
    obtain ⟨k, k1, k2, k3⟩ := hkids
    have hin : PersistentSet.before d.above ++ c.inorder ++ PersistentSet.after d.above = p.before ++ p.after := by
      rw [← hd3, hci]
      unfold Path.before Path.after
      simp [List.append_assoc]
    cases hab : d.above with
    | nil =>
      rw [hab] at hin hred
      refine ⟨_, rfl, ?_, hsab, ?_, ?_, isRed_paint _⟩
      · rw [inorder_paint, ← hin]; simp [PersistentSet.before, PersistentSet.after]
      · show (1 : Int) = _
        have hdr : d.red = false := by
          cases hq : d.red with
          | false => rfl
          | true => obtain ⟨_, _, h, _⟩ := hred (by unfold Path.node; rw [isRed_node, hq]); cases h
        -- one subtree is empty, so the other has no black node
        have hk0 : k = 0 := by
          obtain ⟨k', a1, a2, a3, a4⟩ := RB_near hRB
          have e := a4 hdr
          have e2 := k3 hdr
          have : k' = 0 := by
            rcases hd1 with h | h
            · rw [h] at a1; simpa [RB] using a1
            · rw [h] at a2; simpa [RB] using a2
          omega
        subst hk0
        have hne : p.before ++ p.after ≠ [] := by
          intro h
          rw [h] at hlen
          rw [hlen] at hsz
          exact h1 (by simpa using hsz)
        cases c with
        | leaf =>
          exfalso; apply hne; rw [← hin]; simp [PersistentSet.before, PersistentSet.after, T.inorder]
        | node cr cl cv crr =>
          obtain ⟨k', a1, a2, a3, a4⟩ := RB_near k1
          cases cr with
          | false => have := a4 rfl; omega
          | true =>
            obtain ⟨e, b1, b2⟩ := a3 rfl
            subst e
            have leaf_of : ∀ t : T α, RB t 0 → t.isRed = false → t = .leaf := by
              intro t h1 h2
              cases t with
              | leaf => rfl
              | node r _ _ _ =>
                simp only [T.isRed] at h2; subst h2; simp [RB] at h1
            rw [leaf_of cl a1 b1, leaf_of crr a2 b2] at hin
            rw [← hin]
            simp [PersistentSet.before, PersistentSet.after, T.inorder]
      · cases hq : c.isRed with
        | true => exact ⟨_, RB_paint_red k1 hq⟩
        | false => rw [paint_black hq]; exact ⟨k, k1⟩
    | cons f fs =>
      rw [hab] at hin hred hctx
      simp only
      cases hdr : d.red with
      | true =>
        rw [if_pos rfl]
        obtain ⟨e, hb⟩ := k2 hdr
        subst e
        obtain ⟨m, m1, m2⟩ := good_plug (t := c) (fs := f :: fs) ⟨k, k1, hctx, by rw [hb]; intro h; cases h⟩
        refine ⟨_, rfl, ?_, hsab, ?_, ⟨m, m1⟩, m2⟩
        · rw [inorder_plug]; exact hin
        · show p.size - 1 = _
          omega
      | false =>
        rw [if_neg (by simp)]
        have e := k3 hdr
        subst e
        obtain ⟨t', ht, hti, m, m1, m2⟩ := delLoop_ok (f :: fs) c k
          ⟨fun _ => k1, fun h => RB_paint_red k1 h⟩ hctx
        rw [ht]
        refine ⟨_, rfl, ?_, hsab, ?_, ⟨m, m1⟩, m2⟩
        · rw [← hin]; exact hti
        · show p.size - 1 = _
          omega

/-- Removing a value from a set of other than one element. -/
theorem remove_ok_partial {cmp : α → α → Int} (o : Order cmp) {s : PSet α} {l : List α} (h : Rep cmp s l) (v : α)
    (h1 : l.length ≠ 1) : ∃ s', remove cmp s v = .ok s' ∧ Rep cmp s' (eraseSpec cmp v l) := by
  unfold remove
  simp only
  cases hf : (find cmp s v).fresh with
  | false =>
    rw [if_pos (by simp)]
    obtain ⟨e, hv, hg, hsz⟩ := find_hit o h v hf
    generalize find cmp s v = q at *
    have hs := h.sorted
    rw [e] at hs
    have hb := eq_only o hs hv
    have := removePath_ok (cmp := cmp) false q hs hg (by rw [← e]; exact hsz) (Or.inr (by omega))
    rw [e, eraseSpec_hit hb.1 hb.2 hv]
    exact this
  | true =>
    rw [if_neg (by simp)]
    refine ⟨s, rfl, ?_⟩
    obtain ⟨_, ei, h2, h3, _⟩ := (find_ok o h v).miss hf
    have : eraseSpec cmp v l = l := by
      apply filter_all
      intro x hx
      rw [← h.elems, ← ei] at hx
      rcases List.mem_append.1 hx with hx | hx
      · have := h2 x hx; simp; omega
      · have := h3 x hx; simp; omega
    rw [this]
    exact h

/-- The only element of a set cannot be removed in this way: the exception for a wrong path is thrown. -/
theorem remove_last {cmp : α → α → Int} (o : Order cmp) {s : PSet α} {x : α} (h : Rep cmp s [x]) (v : α) (hv : cmp v x = 0) :
    remove cmp s v = .error .illegalArgument := by
  have hsp := find_spec o h v
  have hsz := (find_ok o h v).count
  rw [h.size] at hsz
  unfold remove
  simp only
  cases hf : (find cmp s v).fresh with
  | true => rw [hf] at hsp; simp [findSpec, hv] at hsp
  | false =>
    rw [if_pos (by simp)]
    unfold removePath
    rw [if_pos (by rw [hsz]; rfl), if_neg (by simp)]

/-- Through the path found, an element can be removed from any set. -/
theorem path_remove_ok {cmp : α → α → Int} (o : Order cmp) {s : PSet α} {l : List α} (h : Rep cmp s l) (v : α) :
    if (findSpec cmp v l).isSome then ∃ s', (find cmp s v).remove = .ok s' ∧ Rep cmp s' (eraseSpec cmp v l)
    else (find cmp s v).remove = .error .illegalState := by
  have hsp := find_spec o h v
  cases hf : (find cmp s v).fresh with
  | true =>
    rw [hf] at hsp
    rw [hsp, if_neg (by simp)]
    unfold Path.remove
    rw [if_pos hf]
  | false =>
    rw [hf] at hsp
    rw [hsp, if_pos (by simp)]
    obtain ⟨e, hv, hg, hsz⟩ := find_hit o h v hf
    unfold Path.remove
    rw [if_neg (by rw [hf]; simp)]
    generalize find cmp s v = q at *
    have hs := h.sorted
    rw [e] at hs
    have hb := eq_only o hs hv
    rw [e, eraseSpec_hit hb.1 hb.2 hv]
    exact removePath_ok (cmp := cmp) true q hs hg (by rw [← e]; exact hsz) (Or.inl rfl)

/-! ### Walking through a set -/

/-- The path stands at an element of the set `s`, the elements `a` before it and `b` behind it. -/
structure At (s : PSet α) (a : List α) (v : α) (b : List α) (p : Path α) : Prop where
  here : p.v = v
  before : p.before = a
  after : p.after = b
  root : p.root = s
  good : Good p.node p.above

theorem up_right (size : Int) (fs : List (Frame α)) : ∀ (t : T α), Good t fs →
    match up false size t fs with
    | none => after fs = []
    | some q => after fs = q.v :: q.after ∧ q.before = before fs ++ t.inorder ∧ q.fresh = false ∧
        q.root = ⟨plug t fs, size⟩ ∧ Good q.node q.above := by
  induction fs with
  | nil => intro t _; rfl
  | cons f fs ih =>
    intro t hg
    unfold up
    cases hl : f.left with
    | false =>
      rw [if_pos rfl]
      have := ih (plug1 t f) (good_up hg)
      cases hu : up false size (plug1 t f) fs with
      | none => rw [hu] at this; simpa [after, hl] using this
      | some q =>
        rw [hu] at this
        simp only at this ⊢
        refine ⟨by simpa [after, hl] using this.1, ?_, this.2.2.1, this.2.2.2.1, this.2.2.2.2⟩
        rw [this.2.1]
        simp [before, hl, plug1, mk, T.inorder, List.append_assoc]
    | true =>
      rw [if_neg (by simp), if_pos rfl]
      have hg' := good_up hg
      unfold plug1 mk at hg'
      rw [hl, if_pos rfl] at hg'
      refine ⟨?_, ?_, rfl, ?_, hg'⟩
      · simp [after, hl, Path.after]
      · simp [before, hl, Path.before]
      · simp [Path.root, Path.node, plug, plug1, mk, hl]

theorem up_left (size : Int) (fs : List (Frame α)) : ∀ (t : T α), Good t fs →
    match up true size t fs with
    | none => before fs = []
    | some q => before fs = q.before ++ [q.v] ∧ q.after = t.inorder ++ after fs ∧ q.fresh = false ∧
        q.root = ⟨plug t fs, size⟩ ∧ Good q.node q.above := by
  induction fs with
  | nil => intro t _; rfl
  | cons f fs ih =>
    intro t hg
    unfold up
    cases hl : f.left with
    | true =>
      rw [if_pos rfl]
      have := ih (plug1 t f) (good_up hg)
      cases hu : up true size (plug1 t f) fs with
      | none => rw [hu] at this; simpa [before, hl] using this
      | some q =>
        rw [hu] at this
        simp only at this ⊢
        refine ⟨by simpa [before, hl] using this.1, ?_, this.2.2.1, this.2.2.2.1, this.2.2.2.2⟩
        rw [this.2.1]
        simp [after, hl, plug1, mk, T.inorder, List.append_assoc]
    | false =>
      rw [if_neg (by simp), if_neg (by simp)]
      have hg' := good_up hg
      unfold plug1 mk at hg'
      rw [hl, if_neg (by simp)] at hg'
      refine ⟨?_, ?_, rfl, ?_, hg'⟩
      · simp [before, hl, Path.before]
      · simp [after, hl, Path.after]
      · simp [Path.root, Path.node, plug, plug1, mk, hl]

theorem maxLoop_ok (fresh : Bool) (size : Int) (red : Bool) (l : T α) (v : α) (r : T α) (fs : List (Frame α)) :
    (maxLoop fresh size red l v r fs).size = size ∧
    (maxLoop fresh size red l v r fs).fresh = fresh ∧
    plug (maxLoop fresh size red l v r fs).node (maxLoop fresh size red l v r fs).above = plug (.node red l v r) fs ∧
    (maxLoop fresh size red l v r fs).after = after fs ∧
    (Good (.node red l v r) fs → Good (maxLoop fresh size red l v r fs).node (maxLoop fresh size red l v r fs).above) := by
  induction r generalizing red v l fs with
  | leaf =>
    exact ⟨rfl, rfl, rfl, by simp [maxLoop, Path.after, T.inorder], fun h => h⟩
  | node rred rl rv rr _ ih =>
    simp only [maxLoop]
    obtain ⟨h2, h3, h4, h5, h6⟩ := ih rred rl rv (⟨false, red, v, l⟩ :: fs)
    exact ⟨h2, h3, by rw [h4]; simp [plug, plug1, mk], by rw [h5]; simp [after], fun h => h6 (good_right h)⟩

/-- `successor` goes to the next element. -/
theorem successor_ok {s : PSet α} {a b : List α} {v : α} {p : Path α} (h : At s a v b p) :
    match b with
    | [] => p.successor = none
    | w :: b' => ∃ q, p.successor = some q ∧ At s (a ++ [v]) w b' q ∧ q.fresh = false := by
  have hkey : match p.successor with
      | none => p.after = []
      | some q => p.after = q.v :: q.after ∧ q.before = p.before ++ [p.v] ∧ q.fresh = false ∧
          q.root = p.root ∧ Good q.node q.above := by
    have hg := h.good
    unfold Path.successor
    cases hr : p.r with
    | leaf =>
      simp only
      have := up_right p.size p.above p.node hg
      cases hu : up false p.size p.node p.above with
      | none => rw [hu] at this; simpa [Path.after, hr, T.inorder] using this
      | some q =>
        rw [hu] at this
        simp only at this ⊢
        refine ⟨by simpa [Path.after, hr, T.inorder] using this.1, ?_, this.2.2.1, this.2.2.2.1, this.2.2.2.2⟩
        rw [this.2.1]
        simp [Path.before, Path.node, T.inorder, hr, List.append_assoc]
    | node rred rl rv rr =>
      simp only
      have hm := minLoop_ok false p.size rred rl rv rr (⟨false, p.red, p.v, p.l⟩ :: p.above)
      generalize minLoop false p.size rred rl rv rr (⟨false, p.red, p.v, p.l⟩ :: p.above) = q at *
      obtain ⟨m1, m2, m3, m4, m5, m6⟩ := hm
      have e1 : q.root = p.root := by
        unfold Path.root Path.node
        unfold Path.node at m4
        rw [m4, m2, ← hr]
        simp [plug, plug1, mk]
      have e2 : q.before = p.before ++ [p.v] := by
        rw [m5]
        simp [before, Path.before, List.append_assoc]
      refine ⟨?_, e2, m3, e1, ?_⟩
      · have i1 := Path.inorder q
        have i2 := Path.inorder p
        rw [e1, e2] at i1
        rw [i1] at i2
        simp only [List.append_assoc] at i2
        have := List.append_cancel_left i2
        simp only [List.cons_append, List.nil_append, List.cons.injEq] at this
        exact this.2.symm
      · apply m6
        unfold Path.node at hg
        rw [hr] at hg
        exact good_right hg
  rw [h.after, h.before, h.here, h.root] at hkey
  cases hs : p.successor with
  | none =>
    rw [hs] at hkey
    simp only at hkey
    subst hkey
    rfl
  | some q =>
    rw [hs] at hkey
    simp only at hkey
    cases b with
    | nil => cases hkey.1
    | cons w b' =>
      simp only [List.cons.injEq] at hkey
      exact ⟨q, rfl, ⟨hkey.1.1.symm, hkey.2.1, hkey.1.2.symm, hkey.2.2.2.1, hkey.2.2.2.2⟩, hkey.2.2.1⟩

/-- `predecessor` goes to the element before. -/
theorem predecessor_ok {s : PSet α} {a b : List α} {v : α} {p : Path α} (h : At s a v b p) :
    match p.predecessor with
    | none => a = []
    | some q => ∃ a' w, a = a' ++ [w] ∧ At s a' w (v :: b) q ∧ q.fresh = false := by
  have hkey : match p.predecessor with
      | none => p.before = []
      | some q => p.before = q.before ++ [q.v] ∧ q.after = p.v :: p.after ∧ q.fresh = false ∧
          q.root = p.root ∧ Good q.node q.above := by
    have hg := h.good
    unfold Path.predecessor
    cases hr : p.l with
    | leaf =>
      simp only
      have := up_left p.size p.above p.node hg
      cases hu : up true p.size p.node p.above with
      | none => rw [hu] at this; simpa [Path.before, hr, T.inorder] using this
      | some q =>
        rw [hu] at this
        simp only at this ⊢
        refine ⟨by simpa [Path.before, hr, T.inorder] using this.1, ?_, this.2.2.1, this.2.2.2.1, this.2.2.2.2⟩
        rw [this.2.1]
        simp [Path.after, Path.node, T.inorder, hr]
    | node rred rl rv rr =>
      simp only
      have hm := maxLoop_ok false p.size rred rl rv rr (⟨true, p.red, p.v, p.r⟩ :: p.above)
      generalize maxLoop false p.size rred rl rv rr (⟨true, p.red, p.v, p.r⟩ :: p.above) = q at *
      obtain ⟨m2, m3, m4, m5, m6⟩ := hm
      have e1 : q.root = p.root := by
        unfold Path.root Path.node
        unfold Path.node at m4
        rw [m4, m2, ← hr]
        simp [plug, plug1, mk]
      have e2 : q.after = p.v :: p.after := by
        rw [m5]
        simp [after, Path.after]
      refine ⟨?_, e2, m3, e1, ?_⟩
      · have i1 := Path.inorder q
        have i2 := Path.inorder p
        rw [e1, e2] at i1
        rw [i1] at i2
        have i3 : (q.before ++ [q.v]) ++ (p.v :: p.after) = p.before ++ (p.v :: p.after) := by
          rw [← i2]; simp
        exact (List.append_cancel_right i3).symm
      · apply m6
        unfold Path.node at hg
        rw [hr] at hg
        exact good_left hg
  rw [h.after, h.before, h.here, h.root] at hkey
  cases hs : p.predecessor with
  | none => rw [hs] at hkey; exact hkey
  | some q =>
    rw [hs] at hkey
    simp only at hkey ⊢
    exact ⟨q.before, q.v, hkey.1, ⟨rfl, rfl, hkey.2.1, hkey.2.2.2.1, hkey.2.2.2.2⟩, hkey.2.2.1⟩

/-- `first` stands at the first element, but says that it is not one of the set. -/
theorem first_ok {cmp : α → α → Int} {s : PSet α} {l : List α} (h : Rep cmp s l) :
    match l with
    | [] => first s = none
    | x :: r => ∃ p, first s = some p ∧ At s [] x r p ∧ p.fresh = true := by
  have he := h.elems
  obtain ⟨k, hk⟩ := h.shape
  have hg := good_nil hk h.black
  unfold first
  cases hr : s.root with
  | leaf =>
    rw [hr] at he
    subst he
    rfl
  | node red tl v tr =>
    simp only
    have hm := minLoop_ok true s.size red tl v tr []
    generalize minLoop true s.size red tl v tr [] = q at *
    obtain ⟨m1, m2, m3, m4, m5, m6⟩ := hm
    have e1 : q.root = s := by
      unfold Path.root
      rw [m4, m2, plug, ← hr]
    have i1 := Path.inorder q
    rw [e1, h.elems, m5] at i1
    simp only [before, List.nil_append] at i1
    subst i1
    rw [hr] at hg
    exact ⟨q, rfl, ⟨rfl, m5, rfl, e1, m6 hg⟩, m3⟩

/-- `last` stands at the last element. -/
theorem last_ok {cmp : α → α → Int} {s : PSet α} {l : List α} (h : Rep cmp s l) :
    match last s with
    | none => l = []
    | some p => ∃ a x, l = a ++ [x] ∧ At s a x [] p ∧ p.fresh = true := by
  have he := h.elems
  obtain ⟨k, hk⟩ := h.shape
  have hg := good_nil hk h.black
  unfold last
  cases hr : s.root with
  | leaf =>
    rw [hr] at he
    subst he
    rfl
  | node red tl v tr =>
    simp only
    have hm := maxLoop_ok true s.size red tl v tr []
    generalize maxLoop true s.size red tl v tr [] = q at *
    obtain ⟨m2, m3, m4, m5, m6⟩ := hm
    have e1 : q.root = s := by
      unfold Path.root
      rw [m4, m2, plug, ← hr]
    have i1 := Path.inorder q
    rw [e1, h.elems, m5] at i1
    rw [hr] at hg
    exact ⟨q.before, q.v, i1, ⟨rfl, rfl, m5, e1, m6 hg⟩, m3⟩

/-- PersistentSet.java:569-588: what an iterator gives, `next` called while `hasNext`. -/
def walk : Nat → Option (Path α) → List α
  | 0, _ => []
  | _ + 1, none => []
  | n + 1, some p => p.v :: walk n p.successor

theorem walk_ok {s : PSet α} : ∀ (b : List α) (a : List α) (v : α) (p : Path α) (n : Nat), At s a v b p → b.length < n →
    walk n (some p) = v :: b := by
  intro b
  induction b with
  | nil =>
    intro a v p n h hn
    cases n with
    | zero => omega
    | succ n =>
      have := successor_ok h
      simp only at this
      rw [walk, this, h.here]
      cases n <;> rfl
  | cons w b ih =>
    intro a v p n h hn
    cases n with
    | zero => omega
    | succ n =>
      obtain ⟨q, hq, hat, _⟩ := successor_ok h
      rw [walk, hq, h.here, ih _ w q n hat (by simp only [List.length_cons] at hn; omega)]

/-- An iterator gives the elements once each in increasing order. -/
theorem iterate_ok {cmp : α → α → Int} {s : PSet α} {l : List α} (h : Rep cmp s l) : walk (l.length + 1) (first s) = l := by
  have := first_ok h
  cases l with
  | nil => rw [this]; rfl
  | cons x r =>
    obtain ⟨p, hp, hat, _⟩ := this
    rw [hp, walk_ok r [] x p _ hat (by simp only [List.length_cons]; omega)]

/-! ### Depth -/

theorem RB_size (t : T α) (n : Nat) (h : RB t n) : 2 ^ n ≤ t.inorder.length + 1 := by
  induction t generalizing n with
  | leaf => simp only [RB] at h; subst h; simp [T.inorder]
  | node red l v r ihl ihr =>
    obtain ⟨k, h1, h2, h3, h4⟩ := RB_near h
    have i1 := ihl k h1
    have i2 := ihr k h2
    cases red with
    | true =>
      obtain ⟨e, _⟩ := h3 rfl
      subst e
      simp only [T.inorder, List.length_append, List.length_cons]; omega
    | false =>
      rw [h4 rfl]
      simp only [T.inorder, List.length_append, List.length_cons, Nat.pow_succ]; omega

theorem RB_depth (t : T α) (n : Nat) (h : RB t n) : t.depth ≤ 2 * n + (if t.isRed then 1 else 0) := by
  induction t generalizing n with
  | leaf => simp [T.depth]
  | node red l v r ihl ihr =>
    obtain ⟨k, h1, h2, h3, h4⟩ := RB_near h
    have i1 := ihl k h1
    have i2 := ihr k h2
    cases red with
    | true =>
      obtain ⟨e, b1, b2⟩ := h3 rfl
      rw [b1] at i1
      rw [b2] at i2
      simp only [T.depth, T.isRed, if_true, Bool.false_eq_true, if_false] at *
      omega
    | false =>
      have := h4 rfl
      have e1 : (if l.isRed then 1 else 0) ≤ 1 := by split <;> omega
      have e2 : (if r.isRed then 1 else 0) ≤ 1 := by split <;> omega
      simp only [T.depth, T.isRed, Bool.false_eq_true, if_false] at *
      omega

/-- The number of comparisons of a search is at most twice the logarithm of the number of elements plus one. -/
theorem depth_ok {cmp : α → α → Int} {s : PSet α} {l : List α} (h : Rep cmp s l) :
    2 ^ ((s.root.depth + 1) / 2) ≤ l.length + 1 := by
  obtain ⟨k, hk⟩ := h.shape
  have h1 := RB_size _ _ hk
  have h2 := RB_depth _ _ hk
  rw [h.black] at h2
  rw [h.elems] at h1
  simp only [Bool.false_eq_true, if_false] at h2
  exact Nat.le_trans (Nat.pow_le_pow_right (by omega) (by omega)) h1

/-! ### Any use of a set -/

/-- Operations on a set. -/
inductive Op (α : Type) where
  | add (v : α) (replace : Bool)
  | remove (v : α)

/-- An operation that throws leaves the set as it is. -/
def step (cmp : α → α → Int) (s : PSet α) : Op α → PSet α
  | .add v rep => match add cmp s v rep with | .ok s' => s' | .error _ => s
  | .remove v => match remove cmp s v with | .ok s' => s' | .error _ => s

/-- The elements after an operation; the removal of the only element fails. -/
def stepSpec (cmp : α → α → Int) (l : List α) : Op α → List α
  | .add v rep => if (findSpec cmp v l).isSome && !rep then l else putSpec cmp v l
  | .remove v => if l.length = 1 then l else eraseSpec cmp v l

theorem empty_rep (cmp : α → α → Int) : Rep cmp (empty : PSet α) [] :=
  ⟨rfl, List.Pairwise.nil, rfl, ⟨0, rfl⟩, rfl⟩

/-- A set with one element has it alone. -/
theorem step_ok {cmp : α → α → Int} (o : Order cmp) {s : PSet α} {l : List α} (h : Rep cmp s l) (op : Op α) :
    Rep cmp (step cmp s op) (stepSpec cmp l op) := by
  cases op with
  | add v rep =>
    obtain ⟨s', e, hr⟩ := add_ok o h v rep
    simp only [step, e, stepSpec]
    exact hr
  | remove v =>
    simp only [step, stepSpec]
    by_cases h1 : l.length = 1
    · rw [if_pos h1]
      cases l with
      | nil => cases h1
      | cons x r =>
        cases r with
        | cons _ _ => simp at h1
        | nil =>
          by_cases hv : cmp v x = 0
          · rw [remove_last o h v hv]; exact h
          · have hsp := find_spec o h v
            cases hf : (find cmp s v).fresh with
            | true =>
              have e : remove cmp s v = .ok s := by unfold remove; simp [hf]
              rw [e]; exact h
            | false => rw [hf] at hsp; simp [findSpec, hv] at hsp
    · rw [if_neg h1]
      obtain ⟨s', e, hr⟩ := remove_ok_partial o h v h1
      rw [e]
      exact hr

/-- After any operations on a new set it has the elements it should have, in increasing order, and can be walked
through; only removing the only element is missing. -/
theorem run_partial {cmp : α → α → Int} (o : Order cmp) (ops : List (Op α)) :
    let s := ops.foldl (step cmp) empty
    let l := ops.foldl (stepSpec cmp) []
    Rep cmp s l ∧ walk (l.length + 1) (first s) = l ∧ s.size = l.length ∧ (∀ v, (!(find cmp s v).fresh) = (findSpec cmp v l).isSome) := by
  have key : ∀ (ops : List (Op α)) (s : PSet α) (l : List α), Rep cmp s l →
      Rep cmp (ops.foldl (step cmp) s) (ops.foldl (stepSpec cmp) l) := by
    intro ops
    induction ops with
    | nil => intro s l h; exact h
    | cons op ops ih => intro s l h; exact ih _ _ (step_ok o h op)
  have h := key ops empty [] (empty_rep cmp)
  refine ⟨h, iterate_ok h, h.size, fun v => ?_⟩
  rw [find_spec o h v]
  cases (find cmp _ v).fresh <;> rfl

/-! ### Examples -/

/-- The order of the integers. -/
def intCmp (a b : Int) : Int := if a < b then -1 else if a = b then 0 else 1

theorem intCmp_order : Order intCmp := by
  constructor
  · intro a b; unfold intCmp; repeat' split
    all_goals omega
  · intro a b c; unfold intCmp; repeat' split
    all_goals omega

def demo : PSet Int := ([5, 3, 8, 1, 4, 7, 9, 2, 6].map (Op.add · false)).foldl (step intCmp) empty

example : demo.root.inorder = [1, 2, 3, 4, 5, 6, 7, 8, 9] ∧ demo.size = 9 := by decide +kernel
example : Rep intCmp demo [1, 2, 3, 4, 5, 6, 7, 8, 9] := by
  have := (run_partial intCmp_order ([5, 3, 8, 1, 4, 7, 9, 2, 6].map (Op.add · false))).1
  exact this
example : ((remove intCmp demo 4).map fun s => (s.root.inorder, s.size)) = .ok ([1, 2, 3, 5, 6, 7, 8, 9], 8) := by decide +kernel
example : ((add intCmp demo 4 true).map fun s => (s.root.inorder, s.size)) = .ok ([1, 2, 3, 4, 5, 6, 7, 8, 9], 9) := by decide +kernel
example : walk 10 (first demo) = [1, 2, 3, 4, 5, 6, 7, 8, 9] := by decide +kernel
example : demo.root.depth = 4 := by decide +kernel
example : (remove intCmp (step intCmp empty (.add 1 false)) 1).isOk = false := by decide +kernel

end Avian.PersistentSet
