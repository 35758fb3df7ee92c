import Verif.Tree.Refine

/-
Lookups and updates on the pointer tree, and one history step on valid indexes.
-/
namespace Avian.Tree

theorem compare_zero (ip : Int) (m : Method) (h1 : ¬ compare ip m < 0) (h2 : ¬ compare ip m > 0) :
    Contains m ip := by
  rw [compare_neg] at h1
  rw [compare_pos] at h2
  unfold Contains
  omega

/-- Replace the value found for `key`. -/
def T.upd (key : Int) (m : Method) : T → T
  | .leaf => .leaf
  | .node red l v r =>
    if compare key v < 0 then .node red (l.upd key m) v r
    else if compare key v > 0 then .node red l v (r.upd key m)
    else .node red l m r

theorem upd_isRed (key m) (t : T) : (t.upd key m).isRed = t.isRed := by
  cases t with
  | leaf => rfl
  | node red l v r =>
    simp only [T.upd]
    split
    · rfl
    · split <;> rfl

theorem upd_RB (key m) (t : T) (n : Nat) (h : RB t n) : RB (t.upd key m) n := by
  induction t generalizing n with
  | leaf => exact h
  | node red l v r ihl ihr =>
    simp only [T.upd]
    cases red with
    | true =>
      simp only [RB] at h
      split
      · exact ⟨ihl n h.1, h.2.1, by rw [upd_isRed]; exact h.2.2.1, h.2.2.2⟩
      · split
        · exact ⟨h.1, ihr n h.2.1, h.2.2.1, by rw [upd_isRed]; exact h.2.2.2⟩
        · exact h
    | false =>
      simp only [RB] at h
      obtain ⟨k, rfl, h1, h2⟩ := h
      split
      · exact ⟨k, rfl, ihl k h1, h2⟩
      · split
        · exact ⟨k, rfl, h1, ihr k h2⟩
        · exact ⟨k, rfl, h1, h2⟩

open Classical in
theorem upd_inorder (key m) (t : T) (hs : Sorted t.inorder) :
    (t.upd key m).inorder = t.inorder.map (fun a => if Contains a key then m else a) := by
  have noop : ∀ l : List Method, (∀ a ∈ l, ¬ Contains a key) →
      l.map (fun a => if Contains a key then m else a) = l := by
    intro l hl
    conv => rhs; rw [← List.map_id l]
    apply List.map_congr_left
    intro a ha
    rw [if_neg (hl a ha)]; rfl
  induction t with
  | leaf => rfl
  | node red l v r ihl ihr =>
    rw [T.inorder, Sorted.node_iff] at hs
    obtain ⟨hl, hr, hv, h1, h2, h3⟩ := hs
    simp only [T.upd]
    unfold Contains at *
    by_cases c1 : compare key v < 0
    · have c1' := (compare_neg key v).1 c1
      rw [if_pos c1]
      simp only [T.inorder, List.map_append, List.map_cons, ihl hl]
      rw [noop r.inorder (fun a ha => by have := h2 a ha; omega), if_neg (by omega)]
    · rw [if_neg c1]
      rw [compare_neg] at c1
      by_cases c2 : compare key v > 0
      · have c2' := (compare_pos key v).1 c2
        rw [if_pos c2]
        simp only [T.inorder, List.map_append, List.map_cons, ihr hr]
        rw [noop l.inorder (fun a ha => by have := h1 a ha; omega), if_neg (by omega)]
      · rw [if_neg c2]
        rw [compare_pos] at c2
        simp only [T.inorder, List.map_append, List.map_cons]
        rw [noop l.inorder (fun a ha => by have := h1 a ha; omega),
          noop r.inorder (fun a ha => by have := h2 a ha; omega), if_pos (by omega)]

theorem repr_setValue_other {h : Heap} {s P a t} (hr : Repr h s P a t) (b : Nat) (v' : Method)
    (hne : ∀ m ∈ t.inorder, m ≠ (h.mem b).value) : Repr (h.setValue b v') s P a t := by
  induction t generalizing a with
  | leaf => exact hr
  | node red l v r ihl ihr =>
    obtain ⟨h1, h2, h3, h4, h5, h6⟩ := hr
    have hab : a ≠ b := by
      rintro rfl
      exact hne v (by simp [T.inorder]) h4.symm
    have e : (h.setValue b v').mem a = h.mem a := by
      simp only [Heap.setValue, Heap.set]; rw [if_neg hab]
    refine ⟨h1, h2, by rw [e]; exact h3, by rw [e]; exact h4, ?_, ?_⟩
    · rw [e]; exact ihl h5 (fun m hm => hne m (by simp [T.inorder, hm]))
    · rw [e]; exact ihr h6 (fun m hm => hne m (by simp [T.inorder, hm]))

theorem find_ok {h : Heap} {s : Nat} {P : Nat → Prop} (key : Int) (t : T) (a fuel : Nat)
    (hr : Repr h s P a t) (hf : t.depth < fuel) (hs : Sorted t.inorder) :
    ∃ r, find h s key fuel a = some r ∧ r.map (fun b => (h.mem b).value) = t.find key ∧
      ∀ b, r = some b → Contains (h.mem b).value key ∧ P b ∧
        ∀ v', Repr (h.setValue b v') s P a (t.upd key v') := by
  induction t generalizing a fuel with
  | leaf =>
    obtain ⟨fuel, rfl⟩ : ∃ k, fuel = k + 1 := ⟨fuel - 1, by omega⟩
    have : a = s := hr
    exact ⟨none, by simp [find, this], rfl, by intro b hb; cases hb⟩
  | node red l v r ihl ihr =>
    obtain ⟨fuel, rfl⟩ : ∃ k, fuel = k + 1 := ⟨fuel - 1, by omega⟩
    obtain ⟨h1, h2, h3, h4, h5, h6⟩ := hr
    rw [T.inorder, Sorted.node_iff] at hs
    obtain ⟨hl, hrr, hv, s1, s2, s3⟩ := hs
    simp only [T.depth] at hf
    simp only [find, if_neg h1, h4, T.find, T.upd]
    by_cases c1 : compare key v < 0
    · obtain ⟨q, q1, q2, q3⟩ := ihl (h.mem a).left fuel h5 (by omega) hl
      simp only [if_pos c1]
      refine ⟨q, q1, q2, ?_⟩
      intro b hb
      obtain ⟨g1, g2, g3⟩ := q3 b hb
      refine ⟨g1, g2, ?_⟩
      intro v'
      have c1' := (compare_neg key v).1 c1
      have hab : a ≠ b := by
        rintro rfl; rw [h4] at g1; unfold Contains at g1; omega
      have e : (h.setValue b v').mem a = h.mem a := by
        simp only [Heap.setValue, Heap.set]; rw [if_neg hab]
      refine ⟨h1, h2, by rw [e]; exact h3, by rw [e]; exact h4, by rw [e]; exact g3 v', ?_⟩
      rw [e]
      refine repr_setValue_other h6 b v' ?_
      rintro m hm rfl
      have := s2 _ hm
      unfold Contains at g1; omega
    · simp only [if_neg c1]
      by_cases c2 : compare key v > 0
      · obtain ⟨q, q1, q2, q3⟩ := ihr (h.mem a).right fuel h6 (by omega) hrr
        simp only [if_pos c2]
        refine ⟨q, q1, q2, ?_⟩
        intro b hb
        obtain ⟨g1, g2, g3⟩ := q3 b hb
        refine ⟨g1, g2, ?_⟩
        intro v'
        have c2' := (compare_pos key v).1 c2
        have hab : a ≠ b := by
          rintro rfl; rw [h4] at g1; unfold Contains at g1; omega
        have e : (h.setValue b v').mem a = h.mem a := by
          simp only [Heap.setValue, Heap.set]; rw [if_neg hab]
        refine ⟨h1, h2, by rw [e]; exact h3, by rw [e]; exact h4, ?_, by rw [e]; exact g3 v'⟩
        rw [e]
        refine repr_setValue_other h5 b v' ?_
        rintro m hm rfl
        have := s1 _ hm
        unfold Contains at g1; omega
      · simp only [if_neg c2]
        refine ⟨some a, rfl, by simp [h4], ?_⟩
        intro b hb
        cases hb
        have hc := compare_zero key v c1 c2
        refine ⟨by rw [h4]; exact hc, h2, ?_⟩
        intro v'
        have e : (h.setValue a v').mem a = { h.mem a with value := v' } := by
          simp only [Heap.setValue, Heap.set, if_true]
        refine ⟨h1, h2, by rw [e]; exact h3, by rw [e], ?_, ?_⟩
        · rw [e]
          refine repr_setValue_other h5 a v' ?_
          rw [h4]
          rintro m hm rfl
          have := s1 _ hm
          omega
        · rw [e]
          refine repr_setValue_other h6 a v' ?_
          rw [h4]
          rintro m hm rfl
          have := s2 _ hm
          omega

/-- Two methods share no code address. -/
def Disj (a b : Method) : Prop := ∀ ip, ¬ (Contains a ip ∧ Contains b ip)

/-- The pointer structure at `root` is a well formed index holding exactly the methods `l`. -/
structure Valid (h : Heap) (s root : Nat) (l : List Method) : Prop where
  sentinel : s < h.next
  sent : Sent h s
  tree : ∃ t, Repr h s (· < h.next) root t ∧ Sorted t.inorder ∧ t.inorder.Perm l ∧
    t.isRed = false ∧ ∃ k, RB t k

theorem size_inorder (t : T) : t.inorder.length = t.size := by
  induction t with
  | leaf => rfl
  | node red l v r ihl ihr => simp [T.inorder, T.size, ihl, ihr]; omega

theorem depth_le (t : T) (k : Nat) (hk : RB t k) (hb : t.isRed = false)
    (hs : t.size + 1 < 2 ^ 51) : t.depth ≤ 100 := by
  have h1 := RB_size t k hk
  have h2 := RB_depth t k hk
  rw [hb] at h2
  have : k ≤ 50 := by
    rcases Nat.lt_or_ge 50 k with h | h
    · have := Nat.pow_le_pow_right (n := 2) (by omega) (show 51 ≤ k by omega)
      omega
    · exact h
  simp at h2
  omega

theorem valid_insert (h : Heap) (s root : Nat) (l : List Method) (m : Method)
    (hv : Valid h s root l) (hsz : 0 < m.size) (hd : ∀ a ∈ l, Disj a m)
    (hlen : l.length + 1 < 2 ^ 51) :
    ∃ root' h', insert h s root m.start m = some (root', h') ∧ Ext h.next h h' ∧
      Valid h' s root' (m :: l) := by
  obtain ⟨hs, hsent, t, hr, hso, hp, hb, k, hk⟩ := hv
  have hlen' : t.size + 1 < 2 ^ 51 := by
    rw [← size_inorder, hp.length_eq]; exact hlen
  have hdep := depth_le t k hk hb hlen'
  have hm : Contains m m.start := by unfold Contains; omega
  have hfind : t.find m.start = none := by
    cases hq : t.find m.start with
    | none => rfl
    | some a =>
      have := (find_iff t hso m.start a).1 hq
      exact absurd ⟨this.2, hm⟩ (hd a (hp.mem_iff.1 this.1) m.start)
  obtain ⟨fs, hfs⟩ := path_exists m.start 100 t [] hdep hfind
  have hctx := path_CtxOK m.start 100 t [] fs k hk trivial (by rw [hb]; intro h; cases h) hfs
  obtain ⟨t1, ht1, k', hk'⟩ := RB_fix (.node true .leaf m .leaf) fs 0 (by simp [RB, T.isRed]) rfl hctx
  have hins : t.insert m.start m = some t1.black := by simp [T.insert, hfs, ht1]
  obtain ⟨root', h', i1, i2, i3, i4⟩ := insert_refines h s root t t1.black m.start m hs hsent hr hins
  obtain ⟨x, y, e1, e2, e3, e4⟩ := insert_inorder t m hso _ hins
  refine ⟨root', h', i1, i2, ⟨?_, i3, t1.black, i4, ?_, ?_, isRed_black t1, k', hk'⟩⟩
  · have := i2.next; omega
  · rw [e2, Sorted.node_iff]
    rw [e1] at hso hp
    have hsx : Sorted x := ⟨(List.pairwise_append.1 hso.1).1,
      fun a ha => hso.2 a (List.mem_append_left _ ha)⟩
    have hsy : Sorted y := ⟨(List.pairwise_append.1 hso.1).2.1,
      fun a ha => hso.2 a (List.mem_append_right _ ha)⟩
    refine ⟨hsx, hsy, hsz, e3, ?_, (List.pairwise_append.1 hso.1).2.2⟩
    intro b hb
    have h4 := e4 b hb
    have hbs := hso.2 b (List.mem_append_right _ hb)
    have hdb := hd b (hp.mem_iff.1 (List.mem_append_right _ hb)) b.start
    unfold Contains at hdb
    omega
  · rw [e2]
    rw [e1] at hp
    exact (List.perm_middle).trans (hp.cons m)

open Classical in
theorem valid_update (h : Heap) (s root fuel : Nat) (l : List Method) (key : Int) (m : Method)
    (hv : Valid h s root l) (hf : ∀ t, Repr h s (· < h.next) root t → t.depth < fuel)
    (a : Method) (ha : a ∈ l) (hc : Contains a key) (hst : m.start = a.start)
    (hsz : m.size = a.size) :
    ∃ h', update h s root fuel key m = some h' ∧
      Valid h' s root (l.map (fun b => if Contains b key then m else b)) := by
  obtain ⟨hs, hsent, t, hr, hso, hp, hb, k, hk⟩ := hv
  obtain ⟨q, q1, q2, q3⟩ := find_ok key t root fuel hr (hf t hr) hso
  have hfind := (find_iff t hso key a).2 ⟨hp.mem_iff.2 ha, hc⟩
  cases q with
  | none => rw [hfind] at q2; cases q2
  | some b =>
    rw [hfind] at q2
    simp at q2
    obtain ⟨g1, g2, g3⟩ := q3 b rfl
    refine ⟨h.setValue b m, by simp [update, q1], ⟨hs, ?_, t.upd key m, g3 m, ?_, ?_, ?_, k, ?_⟩⟩
    · by_cases hbs : b = s
      · -- the found node is a tree node, not the sentinel; either way colours and links are kept
        subst hbs
        constructor <;> simp only [Heap.setValue, Heap.set, if_true]
        · exact hsent.red
        · exact hsent.left
        · exact hsent.right
      · have e : (h.setValue b m).mem s = h.mem s := by
          simp only [Heap.setValue, Heap.set]; rw [if_neg (fun h => hbs h.symm)]
        exact ⟨by rw [e]; exact hsent.red, by rw [e]; exact hsent.left, by rw [e]; exact hsent.right⟩
    · rw [upd_inorder key m t hso]
      have uniq : ∀ c ∈ t.inorder, Contains c key → c = a := by
        intro c hcm hck
        have h1 := (find_iff t hso key c).2 ⟨hcm, hck⟩
        rw [hfind] at h1
        exact (Option.some.inj h1).symm
      have st : ∀ c ∈ t.inorder, (if Contains c key then m else c).start = c.start ∧
          (if Contains c key then m else c).size = c.size := by
        intro c hcm
        by_cases hck : Contains c key
        · rw [if_pos hck, uniq c hcm hck]; exact ⟨hst, hsz⟩
        · rw [if_neg hck]; exact ⟨rfl, rfl⟩
      constructor
      · rw [List.pairwise_map]
        refine List.Pairwise.imp_of_mem ?_ hso.1
        intro c d hcm hdm hcd
        rw [(st c hcm).1, (st c hcm).2, (st d hdm).1]
        exact hcd
      · intro c hcm
        obtain ⟨d, hd, rfl⟩ := List.mem_map.1 hcm
        rw [(st d hd).2]
        exact hso.2 d hd
    · rw [upd_inorder key m t hso]
      exact hp.map _
    · rw [upd_isRed]; exact hb
    · exact upd_RB key m t k hk

end Avian.Tree
