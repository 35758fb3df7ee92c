import Verif.Tree.Lookup

/-
Properties C04, C05, C06: the index from instruction addresses to compiled methods.
-/
namespace Avian.Tree

/-! ### Specification: a plain list of methods -/

/-- What the VM does to the index (src/compile.cpp:10708-10737): `compile` inserts a freshly
compiled method, `publish` replaces the stored record of the method with the same code range. -/
inductive Op where
  | compile (m : Method)
  | publish (m : Method)

/-- Abstract index: a list of records. -/
def specStep (l : List Method) : Op → List Method
  | .compile m => m :: l
  | .publish m => l.map fun a => if a.start = m.start then m else a

def specRun (l : List Method) : List Op → List Method
  | [] => l
  | op :: ops => specRun (specStep l op) ops

/-- The record whose code contains the address. -/
def specLookup (l : List Method) (ip : Int) : Option Method :=
  l.find? fun m => decide (m.start ≤ ip ∧ ip < m.start + m.size)

/-- Code of a new method is non-empty and overlaps no other code; a published record has the
range of a method already inserted. -/
def OpOK (l : List Method) : Op → Prop
  | .compile m => 0 < m.size ∧ ∀ a ∈ l, Disj a m
  | .publish m => ∃ a ∈ l, a.start = m.start ∧ a.size = m.size

def OpsOK (l : List Method) : List Op → Prop
  | [] => True
  | op :: ops => OpOK l op ∧ OpsOK (specStep l op) ops

/-! ### The implementation driven by the same history -/

/-- The initial heap: only the sentinel, at address 0 (src/compile.cpp:9456-9460). -/
def initial : Heap :=
  { mem := fun _ => { value := default, red := false, left := 0, right := 0 },
    next := 1, log := [] }

/-- src/compile.cpp:10708-10714 and 10732-10737; 102 bounds the search (see `depth_bound`). -/
def step (h : Heap) (root : Nat) : Op → Option (Nat × Heap)
  | .compile m => insert h 0 root m.start m
  | .publish m => (update h 0 root 102 m.start m).map fun h => (root, h)

def run (h : Heap) (root : Nat) : List Op → Option (Nat × Heap)
  | [] => some (root, h)
  | op :: ops => do
    let (root, h) ← step h root op
    run h root ops

private theorem initial_valid : Valid initial 0 0 [] :=
  ⟨by decide, ⟨rfl, rfl, rfl⟩, .leaf, rfl, ⟨List.Pairwise.nil, by intro m hm; cases hm⟩,
    List.Perm.nil, rfl, 0, rfl⟩

private theorem specStep_length (l op) : (specStep l op).length ≤ l.length + 1 := by
  cases op <;> simp [specStep]

private theorem valid_depth {h s root l} (hv : Valid h s root l) (hl : l.length + 1 < 2 ^ 51) :
    ∀ t, Repr h s (· < h.next) root t → t.depth ≤ 100 := by
  obtain ⟨_, _, t, hr, _, hp, hb, k, hk⟩ := hv
  intro t' hr'
  rw [hr'.unique hr]
  apply depth_le t k hk hb
  rw [← size_inorder, hp.length_eq]; exact hl

private theorem valid_disj {h s root l} (hv : Valid h s root l) (ip : Int) (a b : Method)
    (ha : a ∈ l) (hb : b ∈ l) (hca : Contains a ip) (hcb : Contains b ip) : a = b := by
  obtain ⟨_, _, t, _, hso, hp, _⟩ := hv
  have h1 := (find_iff t hso ip a).2 ⟨hp.mem_iff.2 ha, hca⟩
  have h2 := (find_iff t hso ip b).2 ⟨hp.mem_iff.2 hb, hcb⟩
  rw [h1] at h2
  exact Option.some.inj h2

private theorem valid_pos {h s root l} (hv : Valid h s root l) : ∀ a ∈ l, 0 < a.size := by
  obtain ⟨_, _, t, _, hso, hp, _⟩ := hv
  intro a ha
  exact hso.2 a (hp.mem_iff.2 ha)

private theorem step_ok {h root l} (op : Op) (hv : Valid h 0 root l) (hok : OpOK l op)
    (hl : l.length + 1 < 2 ^ 51) :
    ∃ root' h', step h root op = some (root', h') ∧ Valid h' 0 root' (specStep l op) := by
  cases op with
  | compile m =>
    obtain ⟨root', h', h1, _, h2⟩ := valid_insert h 0 root l m hv hok.1 hok.2 hl
    exact ⟨root', h', h1, h2⟩
  | publish m =>
    obtain ⟨a, ha, h1, h2⟩ := hok
    have hpos := valid_pos hv a ha
    have hc : Contains a m.start := by unfold Contains; omega
    obtain ⟨h', h3, h4⟩ := valid_update h 0 root 102 l m.start m hv
      (fun t ht => by have := valid_depth hv hl t ht; omega) a ha hc h1.symm h2.symm
    refine ⟨root, h', by simp [step, h3], ?_⟩
    have e : specStep l (.publish m) =
        l.map (@fun b => @ite _ (Contains b m.start) (Classical.propDecidable _) m b) := by
      simp only [specStep]
      apply List.map_congr_left
      intro b hb
      by_cases hbc : Contains b m.start
      · have := valid_disj hv m.start b a hb ha hbc hc
        subst this
        rw [if_pos h1, if_pos hbc]
      · rw [if_neg hbc, if_neg]
        intro hbs
        have := valid_pos hv b hb
        exact hbc (by unfold Contains; omega)
    rw [e]
    exact h4

private theorem run_ok (ops : List Op) : ∀ {h root l}, Valid h 0 root l → OpsOK l ops →
    l.length + ops.length < 2 ^ 51 - 1 →
    ∃ root' h', run h root ops = some (root', h') ∧ Valid h' 0 root' (specRun l ops) := by
  induction ops with
  | nil => intro h root l hv _ _; exact ⟨root, h, rfl, hv⟩
  | cons op ops ih =>
    intro h root l hv hok hl
    simp only [List.length_cons] at hl
    obtain ⟨r1, h1, e1, v1⟩ := step_ok op hv hok.1 (by omega)
    have := specStep_length l op
    obtain ⟨r2, h2, e2, v2⟩ := ih v1 hok.2 (by omega)
    exact ⟨r2, h2, by simp [run, e1, e2], v2⟩

/-! ### Theorems -/

/-- C04: after any history of insertions of methods with disjoint code and of record
replacements, a lookup of any address terminates and finds exactly the record whose code
contains it, or nothing if there is none. -/
theorem code_index_correct (ops : List Op) (hok : OpsOK [] ops)
    (hl : ops.length < 2 ^ 51 - 1) :
    ∃ root h, run initial 0 ops = some (root, h) ∧
      ∀ ip, query h 0 ip 102 root = some (specLookup (specRun [] ops) ip) := by
  obtain ⟨root, h, e, hv⟩ := run_ok ops initial_valid hok (by simpa using hl)
  refine ⟨root, h, e, ?_⟩
  intro ip
  have hv' := hv
  obtain ⟨_, _, t, hr, hso, hp, hb, k, hk⟩ := hv'
  have hlen : (specRun [] ops).length ≤ ops.length := by
    have : ∀ (ops : List Op) (l : List Method), (specRun l ops).length ≤ l.length + ops.length := by
      intro ops
      induction ops with
      | nil => intro l; simp [specRun]
      | cons op ops ih =>
        intro l
        have h1 := ih (specStep l op)
        have h2 := specStep_length l op
        simp only [specRun, List.length_cons]
        omega
    simpa using this ops []
  have hd := valid_depth hv (by omega) t hr
  obtain ⟨r, r1, r2, _⟩ := find_ok ip t root 102 hr (by omega) hso
  simp only [query, r1, Option.map_some, r2]
  congr 1
  cases hq : specLookup (specRun [] ops) ip with
  | some m =>
    have h1 := List.mem_of_find?_eq_some hq
    have h2 := List.find?_some hq
    exact (find_iff t hso ip m).2 ⟨hp.mem_iff.2 h1, by simpa [Contains] using h2⟩
  | none =>
    cases hf : t.find ip with
    | none => rfl
    | some m =>
      have hm := (find_iff t hso ip m).1 hf
      have := List.find?_eq_none.1 hq m (hp.mem_iff.1 hm.1)
      exact absurd hm.2 (by simpa [Contains] using this)

/-- Five methods inserted so that rotations of both kinds and a recolouring happen, one record
replaced. -/
def demoOps : List Op :=
  [.compile ⟨100, 10, 1⟩, .compile ⟨50, 20, 2⟩, .compile ⟨80, 5, 3⟩, .compile ⟨200, 1, 4⟩,
   .compile ⟨150, 50, 5⟩, .publish ⟨80, 5, 6⟩]

private theorem disj_of (a b : Method)
    (h : a.start + a.size ≤ b.start ∨ b.start + b.size ≤ a.start) : Disj a b := by
  intro ip hc
  unfold Contains at hc
  omega

example : OpsOK [] demoOps := by
  refine ⟨⟨by decide, ?_⟩, ⟨by decide, ?_⟩, ⟨by decide, ?_⟩, ⟨by decide, ?_⟩, ⟨by decide, ?_⟩, ?_,
    trivial⟩
  case refine_6 => exact ⟨⟨80, 5, 3⟩, by simp [specStep], rfl, rfl⟩
  all_goals
    refine fun a ha => disj_of _ _ ?_
    revert a
    decide

example : ((run initial 0 demoOps).map fun p =>
    [query p.2 0 82 102 p.1, query p.2 0 199 102 p.1, query p.2 0 75 102 p.1]) =
    some [some (some ⟨80, 5, 6⟩), some (some ⟨150, 50, 5⟩), some none] := by decide +kernel

/-- The longest chain of nodes from an address down to the sentinel. -/
inductive ChainAtMost (h : Heap) (s : Nat) : Nat → Nat → Prop
  | sentinel (d : Nat) : ChainAtMost h s s d
  | node (a d : Nat) (l : ChainAtMost h s (h.mem a).left d) (r : ChainAtMost h s (h.mem a).right d) :
      ChainAtMost h s a (d + 1)

private theorem chain_of_repr {h : Heap} {s a P} (t : T) (hr : Repr h s P a t) (d : Nat)
    (hd : t.depth ≤ d) : ChainAtMost h s a d := by
  induction t generalizing a d with
  | leaf => have : a = s := hr; rw [this]; exact .sentinel d
  | node red l v r ihl ihr =>
    obtain ⟨_, _, _, _, h5, h6⟩ := hr
    simp only [T.depth] at hd
    obtain ⟨d, rfl⟩ : ∃ k, d = k + 1 := ⟨d - 1, by omega⟩
    exact .node a d (ihl h5 d (by omega)) (ihr h6 d (by omega))

/-- C05: after any such history with `n` insertions every path from the root has at most
`2 * k` nodes for some `k` with `2^k ≤ n + 1`, i.e. at most twice the logarithm of the size. -/
theorem depth_bound (ops : List Op) (hok : OpsOK [] ops) (hl : ops.length < 2 ^ 51 - 1) :
    ∃ root h k, run initial 0 ops = some (root, h) ∧
      2 ^ k ≤ (specRun [] ops).length + 1 ∧ ChainAtMost h 0 root (2 * k) := by
  obtain ⟨root, h, e, hv⟩ := run_ok ops initial_valid hok (by simpa using hl)
  obtain ⟨_, _, t, hr, hso, hp, hb, k, hk⟩ := hv
  refine ⟨root, h, k, e, ?_, ?_⟩
  · rw [← hp.length_eq, size_inorder]; exact RB_size t k hk
  · apply chain_of_repr t hr
    have := RB_depth t k hk
    rw [hb] at this
    simpa using this

/-- C05: the depth abort of the insertion (src/util.cpp:166-171) is never reached: on every index
of fewer than `2^51 - 1` methods, inserting another method succeeds. -/
theorem insert_never_aborts (ops : List Op) (m : Method) (hok : OpsOK [] (ops ++ [.compile m]))
    (hl : ops.length + 1 < 2 ^ 51 - 1) :
    ∃ root h, run initial 0 ops = some (root, h) ∧ (insert h 0 root m.start m).isSome := by
  have split : ∀ (ops : List Op) (l : List Method), OpsOK l (ops ++ [.compile m]) →
      OpsOK l ops ∧ OpOK (specRun l ops) (.compile m) := by
    intro ops
    induction ops with
    | nil => intro l h; exact ⟨trivial, h.1⟩
    | cons op ops ih =>
      intro l h
      obtain ⟨h1, h2⟩ := ih _ h.2
      exact ⟨⟨h.1, h1⟩, h2⟩
  obtain ⟨ho, hm⟩ := split ops [] hok
  obtain ⟨root, h, e, hv⟩ := run_ok ops initial_valid ho (by simp; omega)
  have hlen : (specRun [] ops).length ≤ ops.length := by
    have : ∀ (ops : List Op) (l : List Method), (specRun l ops).length ≤ l.length + ops.length := by
      intro ops
      induction ops with
      | nil => intro l; simp [specRun]
      | cons op ops ih =>
        intro l
        have h1 := ih (specStep l op)
        have h2 := specStep_length l op
        simp only [specRun, List.length_cons]
        omega
    simpa using this ops []
  obtain ⟨r', h', e', _⟩ := valid_insert h 0 root _ m hv hm.1 hm.2 (by omega)
  exact ⟨root, h, e, by rw [e']; rfl⟩

/-- C06: an insertion after any history stores only into nodes that it allocated itself (every
address stored to is at or above the allocation frontier at its start), so every node that
existed before is unchanged at every intermediate point; in particular a reader still holding
the old root gets the same answers from the final heap. -/
theorem insert_preserves_snapshot (ops : List Op) (m : Method)
    (hok : OpsOK [] (ops ++ [.compile m])) (hl : ops.length + 1 < 2 ^ 51 - 1) :
    ∃ root h root' h', run initial 0 ops = some (root, h) ∧
      insert h 0 root m.start m = some (root', h') ∧
      (∃ stores, h'.log = stores ++ h.log ∧ ∀ a ∈ stores, h.next ≤ a) ∧
      (∀ a, a < h.next → h'.mem a = h.mem a) ∧
      (∀ ip, query h' 0 ip 102 root = query h 0 ip 102 root) := by
  have split : ∀ (ops : List Op) (l : List Method), OpsOK l (ops ++ [.compile m]) →
      OpsOK l ops ∧ OpOK (specRun l ops) (.compile m) := by
    intro ops
    induction ops with
    | nil => intro l h; exact ⟨trivial, h.1⟩
    | cons op ops ih =>
      intro l h
      obtain ⟨h1, h2⟩ := ih _ h.2
      exact ⟨⟨h.1, h1⟩, h2⟩
  obtain ⟨ho, hm⟩ := split ops [] hok
  obtain ⟨root, h, e, hv⟩ := run_ok ops initial_valid ho (by simp; omega)
  have hlen : (specRun [] ops).length ≤ ops.length := by
    have : ∀ (ops : List Op) (l : List Method), (specRun l ops).length ≤ l.length + ops.length := by
      intro ops
      induction ops with
      | nil => intro l; simp [specRun]
      | cons op ops ih =>
        intro l
        have h1 := ih (specStep l op)
        have h2 := specStep_length l op
        simp only [specRun, List.length_cons]
        omega
    simpa using this ops []
  obtain ⟨r', h', e', x, _⟩ := valid_insert h 0 root _ m hv hm.1 hm.2 (by omega)
  refine ⟨root, h, r', h', e, e', x.log, x.mem, ?_⟩
  intro ip
  have hd := valid_depth hv (by omega)
  obtain ⟨_, _, t, hr, hso, _⟩ := hv
  have hd := hd t hr
  obtain ⟨q, q1, q2, _⟩ := find_ok ip t root 102 hr (by omega) hso
  obtain ⟨q', q1', q2', _⟩ := find_ok (h := h') ip t root 102 (hr.congr x.mem) (by omega) hso
  simp only [query, q1, q1', Option.map_some, q2, q2']

example : ((run initial 0 demoOps).bind fun p =>
    (insert p.2 0 p.1 90 ⟨90, 10, 7⟩).map fun q =>
      [query q.2 0 95 102 p.1, query q.2 0 95 102 q.1]) =
    some [some none, some (some ⟨90, 10, 7⟩)] := by decide +kernel

/-- C04 (limit of the code): replacing the record of an address that is not in the index
dereferences null. -/
theorem update_missing_crashes : (update initial 0 0 102 5 ⟨5, 1, 0⟩).isNone = true := by decide

end Avian.Tree
