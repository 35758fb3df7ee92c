import Verif.Heap.Account

/-
Property C35: heap accounting matches the memory handed out and the limit is respected.
-/
namespace Avian.Account

/-! ### Specification -/

/-- Total size of a list of blocks. -/
def total : List (Nat × Nat) → Nat
  | [] => 0
  | b :: bs => b.2 + total bs

/-- A request is one a correct user makes: only blocks that are held are freed, with
their size, and the operating system has the memory for requests that must not fail. -/
def Proper (l : List (Nat × Nat)) : Req → Prop
  | .try_ _ _ => True
  | .hard _ os => os ≠ none
  | .free p n => (p, n.toNat) ∈ l

/-- The same for every request of a list, following what is held; and at no moment is
4 GB or more held. -/
def Polite : Ctx → List Req → Prop
  | c, [] => total c.blocks < 2 ^ 32
  | c, r :: rs => total c.blocks < 2 ^ 32 ∧ Proper c.blocks r ∧
      ∀ c', step c r = .ok c' → Polite c' rs

/-! ### Proofs -/

theorem total_erase {b : Nat × Nat} {l : List (Nat × Nat)} (h : b ∈ l) :
    total (l.erase b) + b.2 = total l := by
  induction l with
  | nil => cases h
  | cons a l ih =>
    rw [List.erase_cons]
    by_cases hab : a = b
    · subst hab; simp [total, Nat.add_comm]
    · have : b ∈ l := by
        rcases List.mem_cons.1 h with h | h
        · exact absurd h.symm hab
        · exact h
      have ih := ih this
      rw [if_neg (by simpa using hab)]
      simp only [total]
      omega

theorem total_mem {b : Nat × Nat} {l : List (Nat × Nat)} (h : b ∈ l) : b.2 ≤ total l := by
  have := total_erase h
  omega

/-- The recorded usage always agrees with what is handed out modulo `2^32`. -/
def Near (c : Ctx) : Prop := c.count.toNat = total c.blocks % 2 ^ 32

theorem near_allocate {c : Ctx} (h : Near c) (n : BitVec 64) (b : Bool) (os : Option Nat) :
    Near (allocate c n b os).1 := by
  unfold allocate
  split
  · cases os with
    | none => exact h
    | some p =>
      simp only [Near] at h ⊢
      simp only [BitVec.toNat_setWidth, BitVec.toNat_add, total]
      rw [h]
      omega
  · exact h

theorem near_free {c c' : Ctx} (h : Near c) {p : Nat} {n : BitVec 64} (hm : (p, n.toNat) ∈ c.blocks)
    (he : free c p n = .ok c') : Near c' := by
  unfold free at he
  split at he
  · rename_i hle
    cases he
    have := total_erase hm
    simp only [BitVec.le_def, BitVec.toNat_setWidth] at hle
    simp only [Near] at h ⊢
    simp only [BitVec.toNat_setWidth, BitVec.toNat_sub]
    have h1 := c.count.isLt
    have h2 := n.isLt
    simp only at this
    rw [Nat.mod_eq_of_lt (show c.count.toNat < 2 ^ 64 by omega)] at hle ⊢
    omega
  · cases he

theorem near_step {c c' : Ctx} (h : Near c) {r : Req} (hp : Proper c.blocks r)
    (he : step c r = .ok c') : Near c' := by
  cases r with
  | try_ n os => cases he; exact near_allocate h _ _ _
  | hard n os =>
    simp only [step, allocateHard] at he
    have := near_allocate h n false os
    rcases ha : allocate c n false os with ⟨d, _ | p⟩
    · rw [ha] at he; cases he
    · rw [ha] at he this; cases he; exact this
  | free p n => exact near_free h hp he

theorem near_init (l : BitVec 32) : Near (init l) := rfl

theorem free_ok {c : Ctx} (h : c.count.toNat = total c.blocks) {p : Nat} {n : BitVec 64}
    (hm : (p, n.toNat) ∈ c.blocks) : ∃ c', free c p n = .ok c' := by
  unfold free
  have := total_mem hm
  simp only at this
  have h1 := c.count.isLt
  rw [if_pos]
  · exact ⟨_, rfl⟩
  · simp only [BitVec.le_def, BitVec.toNat_setWidth]
    omega

theorem hard_ok (c : Ctx) (n : BitVec 64) (p : Nat) : ∃ r, allocateHard c n (some p) = .ok r := by
  simp [allocateHard, allocate]

theorem run_exact (c : Ctx) (rs : List Req) (hn : Near c) (hp : Polite c rs) :
    ∃ c', run c rs = .ok c' ∧ c'.count.toNat = total c'.blocks ∧ c'.limit = c.limit := by
  induction rs generalizing c with
  | nil =>
    refine ⟨c, rfl, ?_, rfl⟩
    simp only [Polite] at hp
    rw [show c.count.toNat = _ from hn]
    omega
  | cons r rs ih =>
    obtain ⟨hlt, hr, hrest⟩ := hp
    have hex : c.count.toNat = total c.blocks := by
      rw [show c.count.toNat = _ from hn]; omega
    obtain ⟨d, hd, hl⟩ : ∃ d, step c r = .ok d ∧ d.limit = c.limit := by
      cases r with
      | try_ n os =>
        refine ⟨_, rfl, ?_⟩
        simp only [tryAllocate, allocate]
        split
        · cases os <;> rfl
        · rfl
      | hard n os =>
        cases os with
        | none => exact absurd rfl hr
        | some p => exact ⟨_, rfl, rfl⟩
      | free p n =>
        obtain ⟨d, hd⟩ := free_ok hex hr
        refine ⟨d, hd, ?_⟩
        unfold free at hd
        split at hd
        · cases hd; rfl
        · cases hd
    obtain ⟨c', h1, h2, h3⟩ := ih d (near_step hn hr hd) (hrest d hd)
    refine ⟨c', ?_, h2, h3.trans hl⟩
    simp only [run, hd]
    exact h1

/-- **C35 (exact).** On a fresh heap, every sequence of requests of a correct user that
never holds 4 GB or more runs without the heap aborting, and afterwards the recorded
usage is exactly the total size of the blocks still held. -/
theorem usage_exact (limit : BitVec 32) (rs : List Req) (h : Polite (init limit) rs) :
    ∃ c, run (init limit) rs = .ok c ∧ c.count.toNat = total c.blocks := by
  obtain ⟨c, h1, h2, _⟩ := run_exact _ rs (near_init limit) h
  exact ⟨c, h1, h2⟩

/-- **C35 (everything freed).** When nothing is held any more the recorded usage is zero,
even if more than 4 GB were held in between. -/
theorem usage_zero (limit : BitVec 32) (rs : List Req) (c : Ctx)
    (hp : ∀ pre r post d, rs = pre ++ r :: post → run (init limit) pre = .ok d → Proper d.blocks r)
    (h : run (init limit) rs = .ok c) (he : c.blocks = []) : c.count = 0 := by
  have key : ∀ (rs pre : List Req) (d : Ctx), run (init limit) pre = .ok d → Near d →
      (∀ pre' r post e, pre ++ rs = pre' ++ r :: post → run (init limit) pre' = .ok e → Proper e.blocks r) →
      run d rs = .ok c → Near c := by
    intro rs
    induction rs with
    | nil => intro pre d _ hn _ hr; cases hr; exact hn
    | cons r rs ih =>
      intro pre d hd hn hp hr
      simp only [run] at hr
      have hpr := hp pre r rs d rfl hd
      cases hs : step d r with
      | abort => rw [hs] at hr; cases hr
      | ok e =>
        rw [hs] at hr
        refine ih (pre ++ [r]) e ?_ (near_step hn hpr hs) ?_ hr
        · have app : ∀ (l : List Req) (x : Ctx), run x l = .ok d → run x (l ++ [r]) = .ok e := by
            intro l
            induction l with
            | nil => intro x hx; cases hx; simp only [List.nil_append, run, hs]
            | cons a l ihl =>
              intro x hx
              simp only [run, List.cons_append] at hx ⊢
              cases ha : step x a with
              | abort => rw [ha] at hx; cases hx
              | ok y => rw [ha] at hx; exact ihl y hx
          exact app pre _ hd
        · intro pre' r' post e' heq hrun
          exact hp pre' r' post e' (by rw [← heq]; simp) hrun
  have hn : Near c := key rs [] (init limit) rfl (near_init limit)
    (fun pre' r post e heq hr => hp pre' r post e heq hr) h
  simp only [Near, he, total] at hn
  exact BitVec.eq_of_toNat_eq hn

/-- **C35 (limit).** A request that may be refused is granted only if afterwards the
total handed out is below the limit, for every block size short of `2^64 - 2^32`. -/
theorem limit_respected (c : Ctx) (size : BitVec 64) (os : Option Nat) (p : Nat)
    (hc : c.count.toNat = total c.blocks) (hs : size.toNat + 2 ^ 32 ≤ 2 ^ 64)
    (h : (tryAllocate c size os).2 = some p) :
    total (tryAllocate c size os).1.blocks < c.limit.toNat ∧
      (tryAllocate c size os).1.count.toNat = total (tryAllocate c size os).1.blocks := by
  unfold tryAllocate allocate at *
  have h1 := c.count.isLt
  have h2 := c.limit.isLt
  split at h
  · rename_i hlt
    rw [if_pos hlt]
    simp only [Bool.not_true, Bool.false_or, decide_eq_true_eq, BitVec.lt_def, BitVec.toNat_add,
      BitVec.toNat_setWidth] at hlt
    cases os with
    | none => cases h
    | some q =>
      simp only [total, BitVec.toNat_setWidth, BitVec.toNat_add]
      omega
  · cases h

/-- **C35 (refusal).** Such a request is refused, and nothing changes, exactly when the
limit would be reached or the operating system has no memory. -/
theorem refused_iff (c : Ctx) (size : BitVec 64) (os : Option Nat)
    (hc : c.count.toNat = total c.blocks) (hs : size.toNat + 2 ^ 32 ≤ 2 ^ 64) :
    ((tryAllocate c size os).2 = none ↔ os = none ∨ c.limit.toNat ≤ total c.blocks + size.toNat) ∧
      ((tryAllocate c size os).2 = none → (tryAllocate c size os).1 = c) := by
  unfold tryAllocate allocate
  have h1 := c.count.isLt
  have h2 := c.limit.isLt
  split
  · rename_i hlt
    simp only [Bool.not_true, Bool.false_or, decide_eq_true_eq, BitVec.lt_def, BitVec.toNat_add,
      BitVec.toNat_setWidth] at hlt
    cases os with
    | none => simp
    | some q =>
      simp only [reduceCtorEq, false_or, false_iff, false_implies, and_true]
      omega
  · rename_i hlt
    simp only [Bool.not_true, Bool.false_or, decide_eq_true_eq, BitVec.lt_def, BitVec.toNat_add,
      BitVec.toNat_setWidth] at hlt
    simp only [true_iff, implies_true, and_true]
    right
    omega

/-- The requests of a list that may be refused, only. -/
def Soft (rs : List Req) : Prop := ∀ r ∈ rs, match r with | .hard _ _ => False | .try_ n _ => n.toNat + 2 ^ 32 ≤ 2 ^ 64 | .free _ _ => True

/-- **C35 (never over the limit).** If no request insists, the total handed out is below
the limit (or nothing at all is handed out) after every sequence of requests; the
4 GB condition of `usage_exact` is then not needed. -/
theorem never_over (limit : BitVec 32) (rs : List Req) (hs : Soft rs)
    (hp : ∀ pre r post d, rs = pre ++ r :: post → run (init limit) pre = .ok d → Proper d.blocks r) :
    ∃ c, run (init limit) rs = .ok c ∧ c.count.toNat = total c.blocks ∧
      (total c.blocks = 0 ∨ total c.blocks < limit.toNat) := by
  have key : ∀ (rs pre : List Req) (d : Ctx), Soft rs → run (init limit) pre = .ok d →
      d.count.toNat = total d.blocks → d.limit = limit →
      (total d.blocks = 0 ∨ total d.blocks < limit.toNat) →
      (∀ pre' r post e, pre ++ rs = pre' ++ r :: post → run (init limit) pre' = .ok e → Proper e.blocks r) →
      ∃ c, run d rs = .ok c ∧ c.count.toNat = total c.blocks ∧
        (total c.blocks = 0 ∨ total c.blocks < limit.toNat) := by
    intro rs
    induction rs with
    | nil => intro pre d _ _ hc _ hl _; exact ⟨d, rfl, hc, hl⟩
    | cons r rs ih =>
      intro pre d hsoft hd hc hlim hl hp
      have hpr := hp pre r rs d rfl hd
      have hr := hsoft r (List.mem_cons_self ..)
      obtain ⟨e, he, hec, hel, hetot⟩ : ∃ e, step d r = .ok e ∧ e.count.toNat = total e.blocks ∧
          e.limit = limit ∧ (total e.blocks = 0 ∨ total e.blocks < limit.toNat) := by
        cases r with
        | hard n os => exact absurd hr id
        | try_ n os =>
          refine ⟨_, rfl, ?_⟩
          cases hres : (tryAllocate d n os).2 with
          | none => rw [(refused_iff d n os hc hr).2 hres]; exact ⟨hc, hlim, hl⟩
          | some p =>
            have := limit_respected d n os p hc hr hres
            refine ⟨this.2, ?_, Or.inr (hlim ▸ this.1)⟩
            rw [← hlim]
            unfold tryAllocate allocate
            split
            · cases os <;> rfl
            · rfl
        | free p n =>
          obtain ⟨e, he⟩ := free_ok hc hpr
          have hte := total_erase hpr
          simp only at hte
          have h1 := d.count.isLt
          unfold free at he
          split at he
          · rename_i hle
            cases he
            refine ⟨{ d with
              count := (d.count.setWidth 64 - n).setWidth 32
              blocks := d.blocks.erase (p, n.toNat) },
              (by simp only [step, free]; exact if_pos hle), ?_, hlim, ?_⟩
            · simp only [BitVec.toNat_setWidth, BitVec.toNat_sub, BitVec.le_def] at hle ⊢
              omega
            · simp only
              omega
          · cases he
      have app : ∀ (l : List Req) (x : Ctx), run x l = .ok d → run x (l ++ [r]) = .ok e := by
        intro l
        induction l with
        | nil => intro x hx; cases hx; simp only [List.nil_append, run, he]
        | cons a l ihl =>
          intro x hx
          simp only [run, List.cons_append] at hx ⊢
          cases ha : step x a with
          | abort => rw [ha] at hx; cases hx
          | ok y => rw [ha] at hx; exact ihl y hx
      obtain ⟨c, h1, h2⟩ := ih (pre ++ [r]) e (fun x hx => hsoft x (List.mem_cons_of_mem _ hx))
        (app pre _ hd) hec hel hetot
        (fun pre' r' post e' heq hrun => hp pre' r' post e' (by rw [← heq]; simp) hrun)
      exact ⟨c, by simp only [run, he]; exact h1, h2⟩
  exact key rs [] (init limit) hs rfl rfl rfl (Or.inl rfl) hp

/-- **C35 (room left).** `remaining` is the true room while usage is within the limit. -/
theorem remaining_exact (c : Ctx) (hc : c.count.toNat = total c.blocks)
    (h : total c.blocks ≤ c.limit.toNat) :
    (remaining c).toNat = c.limit.toNat - total c.blocks := by
  have h1 := c.count.isLt
  have h2 := c.limit.isLt
  simp only [remaining, BitVec.toNat_sub]
  omega

/-- **C35 (limit test).** The test made before an allocation compares the true usage, plus
the pending bytes, minus the room inside the old generation, with the limit — provided
the old generation's memory is itself part of what is handed out and the sum fits. -/
theorem limitExceeded_exact (c : Ctx) (pending room : BitVec 32)
    (hc : c.count.toNat = total c.blocks)
    (hroom : (room.toNat * 8 : Int) ≤ total c.blocks + pending.toInt)
    (hsum : (total c.blocks : Int) + pending.toInt - room.toNat * 8 < 2 ^ 32) :
    limitExceeded c pending room = true ↔
      (c.limit.toNat : Int) < total c.blocks + pending.toInt - room.toNat * 8 := by
  have h1 := c.count.isLt
  have h2 := c.limit.isLt
  have h3 := pending.isLt
  have h4 := room.isLt
  simp only [limitExceeded, decide_eq_true_eq, BitVec.lt_def, BitVec.toNat_sub, BitVec.toNat_add,
    BitVec.toNat_mul, BitVec.toNat_ofNat]
  rw [BitVec.toInt_eq_toNat_cond] at *
  split at hroom <;> rename_i hh <;> simp only [hh, if_true, if_false] at * <;> omega

/-! ### Where the accounting fails -/

/-- **Finding.** A request that insists is not bounded: after one for exactly 4 GB the
recorded usage is zero although the block is held, and freeing that block aborts. -/
theorem four_gigabytes_unrecorded :
    ∃ c, run (init 0x40000000#32) [.hard 0x100000000#64 (some 4096)] = .ok c ∧
      c.count = 0 ∧ total c.blocks = 2 ^ 32 ∧ free c 4096 0x100000000#64 = .abort := by
  refine ⟨_, rfl, ?_, ?_, ?_⟩ <;> decide +kernel

/-- **Finding.** After a request that insists has passed the limit, `remaining` reports a
huge amount of room. -/
theorem remaining_wraps :
    ∃ c, run (init 100#32) [.hard 101#64 (some 4096)] = .ok c ∧ (remaining c).toNat = 2 ^ 32 - 1 := by
  refine ⟨_, rfl, ?_⟩; decide +kernel

/-! ### Examples -/

/-- A history with a grant, a refusal at the limit, an insisting request and a release. -/
def sample : List Req :=
  [.try_ 60#64 (some 4096), .try_ 40#64 (some 8192), .hard 80#64 (some 8192), .free 4096 60#64]

theorem sample_run : run (init 100#32) sample =
    .ok { count := 80#32, limit := 100#32, blocks := [(8192, 80)] } := by decide +kernel

example : Polite (init 100#32) sample := by
  refine ⟨by decide +kernel, trivial, ?_⟩
  intro c h; cases h
  refine ⟨by decide +kernel, trivial, ?_⟩
  intro c h; cases h
  refine ⟨by decide +kernel, (by intro h; cases h), ?_⟩
  intro c h; cases h
  refine ⟨by decide +kernel, (show (4096, _) ∈ _ by decide +kernel), ?_⟩
  intro c h; cases h
  show total _ < _
  decide +kernel

example : (tryAllocate (init 100#32) 60#64 (some 4096)).2 = some 4096 := by decide +kernel

example : limitExceeded { count := 1000#32, limit := 900#32, blocks := [(8, 1000)] } (-16#32) 5#32 = true := by
  decide +kernel

end Avian.Account
