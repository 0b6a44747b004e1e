import Verif.Model.BinaryPool
import Mathlib.Data.Finset.Card
import Mathlib.Algebra.BigOperators.Group.Finset.Basic
import Mathlib.Algebra.BigOperators.Group.Finset.Piecewise
import Mathlib.Algebra.Order.BigOperators.Group.Finset
import Mathlib.Algebra.BigOperators.Intervals
import Mathlib.Tactic.Ring
set_option linter.unusedSimpArgs false
set_option linter.unnecessarySimpa false

/-! Helper lemmas for `BinaryPool`. -/

namespace Toppo

/-! ### population count -/

/-- number of one bits of a natural number -/
def natPop (n : Nat) : Nat := if h : n = 0 then 0 else n % 2 + natPop (n / 2)
termination_by n
decreasing_by omega

theorem natPop_zero : natPop 0 = 0 := by rw [natPop]; simp
theorem natPop_two_mul (n : Nat) : natPop (2 * n) = natPop n := by
  by_cases h : n = 0
  · subst h; rfl
  · rw [natPop]; simp [h]
theorem natPop_two_mul_add (n : Nat) : natPop (2 * n + 1) = natPop n + 1 := by
  rw [natPop]; simp
  have : (2 * n + 1) / 2 = n := by omega
  rw [this]; omega

theorem and_pred_odd (m : Nat) : (2 * m + 1) &&& (2 * m) = 2 * m := by
  apply Nat.eq_of_testBit_eq; intro i
  rw [Nat.testBit_and]
  cases i with
  | zero => simp
  | succ i =>
    have h1 : (2 * m + 1) / 2 = m := by omega
    have h2 : (2 * m) / 2 = m := by omega
    simp [Nat.testBit_succ, h1, h2]

theorem and_pred_even (m : Nat) (hm : 0 < m) : (2 * m) &&& (2 * m - 1) = 2 * (m &&& (m - 1)) := by
  apply Nat.eq_of_testBit_eq; intro i
  rw [Nat.testBit_and]
  cases i with
  | zero => simp
  | succ i =>
    have h1 : (2 * m) / 2 = m := by omega
    have h2 : (2 * m - 1) / 2 = m - 1 := by omega
    have h3 : (2 * (m &&& (m - 1))) / 2 = m &&& (m-1) := by omega
    rw [Nat.testBit_succ, Nat.testBit_succ, Nat.testBit_succ, h1, h2, h3, Nat.testBit_and]

theorem natPop_and_pred : ∀ n : Nat, 0 < n → natPop (n &&& (n - 1)) + 1 = natPop n := by
  intro n
  induction n using Nat.strongRecOn with
  | _ n ih =>
    intro hn
    rcases Nat.even_or_odd' n with ⟨m, h | h⟩
    · subst h
      have hm : 0 < m := by omega
      rw [and_pred_even m hm, natPop_two_mul, natPop_two_mul]
      exact ih m (by omega) hm
    · subst h
      have : 2 * m + 1 - 1 = 2 * m := by omega
      rw [this, and_pred_odd, natPop_two_mul, natPop_two_mul_add]

theorem countOnesLoop_eq (d : BitVec 64) (c : Nat) : countOnesLoop d c = c + natPop d.toNat := by
  induction hn : d.toNat using Nat.strongRecOn generalizing d c with
  | _ n ih =>
    rw [countOnesLoop]
    split
    · rename_i h; subst h; simp at hn; subst hn; simp [natPop_zero]
    · rename_i h
      have hlt := and_pred_lt d h
      have := ih _ (hn ▸ hlt) (d &&& (d - 1#64)) (c + 1) rfl
      rw [this]
      have h0 : d.toNat ≠ 0 := fun h' => h (BitVec.eq_of_toNat_eq (by simpa using h'))
      have h2 : (d - 1#64).toNat = d.toNat - 1 := by
        have := d.isLt
        rw [BitVec.toNat_sub]; simp; omega
      rw [BitVec.toNat_and, h2, hn]
      have := natPop_and_pred n (by omega)
      omega

theorem natPop_eq_sum (k : Nat) : ∀ n, n < 2 ^ k →
    natPop n = ∑ i ∈ Finset.range k, (if n.testBit i then 1 else 0) := by
  induction k with
  | zero => intro n hn; have : n = 0 := by simpa using hn
            subst this; simp [natPop_zero]
  | succ k ih =>
    intro n hn
    rw [Finset.sum_range_succ']
    have h2 : n / 2 < 2 ^ k := by rw [Nat.div_lt_iff_lt_mul (by norm_num)]; rw [pow_succ] at hn; exact hn
    simp only [Nat.testBit_succ]
    rw [← ih _ h2]
    rcases Nat.even_or_odd' n with ⟨m, h | h⟩
    · subst h; rw [natPop_two_mul]; simp
    · subst h; rw [natPop_two_mul_add]
      have : (2 * m + 1) / 2 = m := by omega
      simp [this]

theorem countOnes_eq_sum (d : BitVec 64) :
    countOnes d = ∑ i ∈ Finset.range 64, (if d.getLsbD i then 1 else 0) := by
  unfold countOnes
  rw [countOnesLoop_eq, Nat.zero_add, natPop_eq_sum 64 d.toNat d.isLt]
  rfl

/-! ### words as bit sequences -/

/-- bit number `i` of a word list -/
def bitAt (data : List (BitVec 64)) (i : Nat) : Bool := (data.getD (i / 64) 0#64).getLsbD (i % 64)

theorem bitAt_cons_lt (w : BitVec 64) (ws : List (BitVec 64)) (i : Nat) (h : i < 64) :
    bitAt (w :: ws) i = w.getLsbD i := by
  unfold bitAt
  rw [Nat.div_eq_of_lt h, Nat.mod_eq_of_lt h]; rfl

theorem bitAt_cons_add (w : BitVec 64) (ws : List (BitVec 64)) (i : Nat) :
    bitAt (w :: ws) (64 + i) = bitAt ws i := by
  unfold bitAt
  have h1 : (64 + i) / 64 = i / 64 + 1 := by omega
  have h2 : (64 + i) % 64 = i % 64 := by omega
  rw [h1, h2]; rfl

theorem bitAt_ge (data : List (BitVec 64)) (i : Nat) (h : 64 * data.length ≤ i) : bitAt data i = false := by
  unfold bitAt
  have : data.length ≤ i / 64 := by omega
  simp [List.getD, List.getElem?_eq_none this]

theorem countAll_eq_sum (data : List (BitVec 64)) :
    BinaryPool.countAll data = ∑ i ∈ Finset.range (64 * data.length), (if bitAt data i then 1 else 0) := by
  induction data with
  | nil => simp [BinaryPool.countAll]
  | cons w ws ih =>
    have h1 : BinaryPool.countAll (w :: ws) = countOnes w + BinaryPool.countAll ws := by
      simp [BinaryPool.countAll]
    rw [h1, ih, countOnes_eq_sum]
    have h2 : 64 * (w :: ws).length = 64 + 64 * ws.length := by simp; omega
    rw [h2, Finset.sum_range_add]
    have e1 : ∑ i ∈ Finset.range 64, (if w.getLsbD i then 1 else 0)
        = ∑ i ∈ Finset.range 64, (if bitAt (w :: ws) i then 1 else 0) := by
      apply Finset.sum_congr rfl
      intro i hi
      rw [bitAt_cons_lt _ _ _ (Finset.mem_range.mp hi)]
    simp only [bitAt_cons_add]
    rw [e1]

theorem ext_bitAt (d e : List (BitVec 64)) (hl : d.length = e.length)
    (h : ∀ i < 64 * d.length, bitAt d i = bitAt e i) : d = e := by
  induction d generalizing e with
  | nil => cases e with
    | nil => rfl
    | cons _ _ => simp at hl
  | cons w ws ih =>
    cases e with
    | nil => simp at hl
    | cons v vs =>
      congr 1
      · apply BitVec.eq_of_getLsbD_eq
        intro i hi
        have := h i (by simp; omega)
        rwa [bitAt_cons_lt _ _ _ hi, bitAt_cons_lt _ _ _ hi] at this
      · apply ih
        · simpa using hl
        · intro i hi
          have := h (64 + i) (by simp; omega)
          rwa [bitAt_cons_add, bitAt_cons_add] at this

/-! ### representation invariant -/

namespace BinaryPool

/-- the set of members -/
def members (p : BinaryPool) : Finset Nat := (Finset.range p.len).filter (fun i => bitAt p.data i)

/-- representation invariant -/
structure Inv (p : BinaryPool) : Prop where
  size : p.data.length = p.len / 64 + 1
  high : ∀ i, p.len ≤ i → bitAt p.data i = false
  card : p.nElements = p.members.card

theorem mem_members (p : BinaryPool) (i : Nat) : i ∈ p.members ↔ i < p.len ∧ bitAt p.data i = true := by
  simp [members]

theorem mem_members_inv {p : BinaryPool} (h : p.Inv) (i : Nat) : i ∈ p.members ↔ bitAt p.data i = true := by
  rw [mem_members]
  constructor
  · exact fun h => h.2
  · intro hb
    refine ⟨?_, hb⟩
    by_contra hc
    rw [h.high i (by omega)] at hb
    exact absurd hb (by simp)

theorem card_eq_sum (n m : Nat) (data : List (BitVec 64)) (hm : n ≤ m)
    (high : ∀ i, n ≤ i → bitAt data i = false) :
    ((Finset.range n).filter (fun i => bitAt data i)).card
      = ∑ i ∈ Finset.range m, (if bitAt data i then 1 else 0) := by
  rw [Finset.card_filter]
  obtain ⟨k, rfl⟩ := Nat.exists_eq_add_of_le hm
  rw [Finset.sum_range_add]
  have : ∑ x ∈ Finset.range k, (if bitAt data (n + x) then 1 else 0) = 0 := by
    apply Finset.sum_eq_zero
    intro i _
    rw [high (n + i) (by omega)]; simp
  omega

theorem countAll_card (p : BinaryPool) (hs : p.data.length = p.len / 64 + 1)
    (high : ∀ i, p.len ≤ i → bitAt p.data i = false) :
    countAll p.data = p.members.card := by
  rw [countAll_eq_sum]
  unfold members
  rw [card_eq_sum p.len (64 * p.data.length) p.data (by omega) high]

theorem contains_eq {p : BinaryPool} (h : p.Inv) (i : Nat) :
    p.contains i = if i < p.len then some (decide (i ∈ p.members)) else none := by
  unfold contains
  by_cases hi : i ≥ p.len
  · simp [hi]
  · have hw : i / 64 < p.data.length := by rw [h.size]; have := Nat.div_le_div_right (c := 64) (show i ≤ p.len by omega); omega
    have hlt : i < p.len := by omega
    simp only [hi, if_false, hlt, if_true, List.getElem?_eq_getElem hw, Option.bind_eq_bind, Option.bind_some]
    congr 1
    have hb : bitAt p.data i = (p.data[i/64]).getLsbD (i % 64) := by
      unfold bitAt; simp [List.getD, List.getElem?_eq_getElem hw]
    have hd : decide (i ∈ p.members) = bitAt p.data i := by
      rw [Bool.eq_iff_iff]; simp [mem_members_inv h]
    rw [hd, hb, Bool.eq_iff_iff]
    have hm : i % 64 < 64 := Nat.mod_lt _ (by norm_num)
    constructor
    · intro he
      have he := eq_of_beq he
      have := congrArg (fun v => v.getLsbD (i % 64)) he
      simpa [hm, BitVec.getLsbD_eq_getElem] using this
    · intro he
      apply beq_of_eq
      apply BitVec.eq_of_getLsbD_eq
      intro j hj
      by_cases hji : j = i % 64
      · subst hji; simp [he]
      · simp; intro _ h2; 
        have : j - i % 64 ≠ 0 ∨ j < i % 64 := by omega
        omega

theorem inv_new (n : Nat) : (new n).Inv ∧ (new n).members = ∅ ∧ (new n).len = n := by
  have hb : ∀ i, bitAt (new n).data i = false := by
    intro i; unfold bitAt new; simp [List.getD, List.getElem?_replicate]; split <;> simp
  refine ⟨⟨by simp [new], fun i _ => hb i, ?_⟩, ?_, rfl⟩
  · simp [members, hb]; simp [new]
  · simp [members, hb]

theorem bitAt_set (data : List (BitVec 64)) (k : Nat) (hk : k < data.length) (w : BitVec 64) (i : Nat) :
    bitAt (data.set k w) i = if i / 64 = k then w.getLsbD (i % 64) else bitAt data i := by
  unfold bitAt
  by_cases h : i / 64 = k
  · subst h; simp [List.getD, List.getElem?_set, hk]
  · have h' : ¬ k = i / 64 := fun e => h e.symm
    simp [List.getD, List.getElem?_set, h, h']

theorem add_spec {p : BinaryPool} (h : p.Inv) (i : Nat) :
    if i < p.len then ∃ q, p.add i = some q ∧ q.Inv ∧ q.len = p.len ∧ q.members = insert i p.members
    else p.add i = none := by
  split
  · rename_i hi
    have hw : i / 64 < p.data.length := by
      rw [h.size]; have := Nat.div_le_div_right (c := 64) (show i ≤ p.len by omega); omega
    have hge : ¬ i ≥ p.len := by omega
    unfold add
    simp only [hge, if_false, contains_eq h, hi, if_true, List.getElem?_eq_getElem hw, Option.bind_eq_bind,
      Option.bind_some]
    refine ⟨_, rfl, ?_⟩
    have hm : i % 64 < 64 := Nat.mod_lt _ (by norm_num)
    have hbit : ∀ j, bitAt (p.data.set (i / 64) (p.data[i / 64] ||| 1#64 <<< (i % 64))) j
        = (decide (j = i) || bitAt p.data j) := by
      intro j
      rw [bitAt_set _ _ hw]
      split
      · rename_i hj
        have hb : bitAt p.data j = (p.data[i/64]).getLsbD (j % 64) := by
          unfold bitAt; simp [List.getD, hj, List.getElem?_eq_getElem hw]
        have hmj : j % 64 < 64 := Nat.mod_lt _ (by norm_num)
        rw [hb, BitVec.getLsbD_or, Bool.or_comm]
        congr 1
        rw [Bool.eq_iff_iff]; simp; constructor
        · intro hh; omega
        · intro hh; subst hh; omega
      · rename_i hj
        have : j ≠ i := fun e => hj (by rw [e])
        simp [this]
    have hmem : ∀ n, (⟨p.len, n,
        p.data.set (i / 64) (p.data[i / 64] ||| 1#64 <<< (i % 64))⟩ : BinaryPool).members = insert i p.members := by
      intro n
      ext j
      rw [mem_members, Finset.mem_insert, mem_members]
      simp only [hbit]
      simp
      constructor
      · rintro ⟨a, b | b⟩
        · exact Or.inl b
        · exact Or.inr ⟨a, b⟩
      · rintro (b | b)
        · exact ⟨by omega, Or.inl b⟩
        · exact ⟨b.1, Or.inr b.2⟩
    refine ⟨⟨by simpa using h.size, ?_, ?_⟩, rfl, hmem _⟩
    · intro j hj
      simp only at hj ⊢
      rw [hbit, h.high j hj]
      simp; omega
    · rw [hmem]
      by_cases hc : i ∈ p.members
      · simp [hc, h.card]
      · simp [hc, h.card]
  · rename_i hi
    unfold add; simp; omega

theorem remove_spec {p : BinaryPool} (h : p.Inv) (i : Nat) :
    if i < p.len then ∃ q, p.remove i = some q ∧ q.Inv ∧ q.len = p.len ∧ q.members = p.members.erase i
    else p.remove i = none := by
  split
  · rename_i hi
    have hw : i / 64 < p.data.length := by
      rw [h.size]; have := Nat.div_le_div_right (c := 64) (show i ≤ p.len by omega); omega
    have hge : ¬ i ≥ p.len := by omega
    have hm : i % 64 < 64 := Nat.mod_lt _ (by norm_num)
    have hbit : ∀ j, bitAt (p.data.set (i / 64) (p.data[i / 64] &&& ~~~(1#64 <<< (i % 64)))) j
        = (!decide (j = i) && bitAt p.data j) := by
      intro j
      rw [bitAt_set _ _ hw]
      split
      · rename_i hj
        have hb : bitAt p.data j = (p.data[i/64]).getLsbD (j % 64) := by
          unfold bitAt; simp [List.getD, hj, List.getElem?_eq_getElem hw]
        have hmj : j % 64 < 64 := Nat.mod_lt _ (by norm_num)
        rw [hb, BitVec.getLsbD_and, Bool.and_comm]
        congr 1
        rw [Bool.eq_iff_iff]; simp [hmj]; constructor
        · intro hh e; subst e; omega
        · intro hh; omega
      · rename_i hj
        have : j ≠ i := fun e => hj (by rw [e])
        simp [this]
    have hmem : ∀ n, (⟨p.len, n,
        p.data.set (i / 64) (p.data[i / 64] &&& ~~~(1#64 <<< (i % 64)))⟩ : BinaryPool).members = p.members.erase i := by
      intro n
      ext j
      rw [mem_members, Finset.mem_erase, mem_members]
      simp only [hbit]
      simp
      tauto
    have hcardpos : i ∈ p.members → p.nElements ≠ 0 := by
      intro hc; rw [h.card]; exact Finset.card_ne_zero_of_mem hc
    unfold remove
    simp only [hge, if_false, contains_eq h, hi, if_true, List.getElem?_eq_getElem hw, Option.bind_eq_bind,
      Option.bind_some]
    have hhigh : ∀ n j, p.len ≤ j → bitAt (⟨p.len, n,
        p.data.set (i / 64) (p.data[i / 64] &&& ~~~(1#64 <<< (i % 64)))⟩ : BinaryPool).data j = false := by
      intro n j hj
      simp only [hbit]
      rw [h.high j hj]; simp
    by_cases hc : i ∈ p.members
    · simp only [hc, decide_true, if_true, hcardpos hc, if_false, Option.bind_some]
      refine ⟨_, rfl, ⟨by simpa using h.size, hhigh _, ?_⟩, rfl, hmem _⟩
      rw [hmem]; simp [hc, h.card]
    · simp only [hc, decide_false, Option.bind_some]
      refine ⟨_, rfl, ⟨by simpa using h.size, hhigh _, ?_⟩, rfl, hmem _⟩
      rw [hmem]; simp [hc, h.card]
  · rename_i hi
    unfold remove; simp; omega

theorem addAll_spec (l : List Nat) : ∀ {p : BinaryPool}, p.Inv →
    if ∀ i ∈ l, i < p.len then ∃ q, p.addAll l = some q ∧ q.Inv ∧ q.len = p.len ∧ q.members = p.members ∪ l.toFinset
    else p.addAll l = none := by
  induction l with
  | nil => intro p h; simp [addAll, h]
  | cons i is ih =>
    intro p h
    have ha := add_spec h i
    by_cases hi : i < p.len
    · simp only [hi, if_true] at ha
      obtain ⟨q, hq, hinv, hlen, hmem⟩ := ha
      have hih := ih hinv
      rw [hlen] at hih
      by_cases hall : ∀ j ∈ is, j < p.len
      · rw [if_pos hall] at hih
        obtain ⟨r, hr, hrinv, hrlen, hrmem⟩ := hih
        rw [if_pos (by intro j hj; rcases List.mem_cons.mp hj with e | e
                       · omega
                       · exact hall j e)]
        refine ⟨r, by simp [addAll, hq, hr], hrinv, hrlen, ?_⟩
        rw [hrmem, hmem]; ext j; simp
      · rw [if_neg hall] at hih
        rw [if_neg (by intro hh; exact hall (fun j hj => hh j (List.mem_cons_of_mem _ hj)))]
        simp [addAll, hq, hih]
    · simp only [hi, if_false] at ha
      rw [if_neg (by intro hh; exact hi (hh i List.mem_cons_self))]
      simp [addAll, ha]

theorem ofIndices_spec (n : Nat) (l : List Nat) :
    if ∀ i ∈ l, i < n then ∃ q, ofIndices n l = some q ∧ q.Inv ∧ q.len = n ∧ q.members = l.toFinset
    else ofIndices n l = none := by
  unfold ofIndices
  obtain ⟨hinv, hmem, hlen⟩ := inv_new n
  cases hm : l.max? with
  | none =>
    have : l = [] := by simpa using hm
    subst this
    simp [hinv, hmem, hlen]
  | some m =>
    simp only
    have hspec := addAll_spec l hinv
    rw [hlen, hmem] at hspec
    have hmm : m ∈ l := List.max?_mem hm
    by_cases hall : ∀ i ∈ l, i < n
    · rw [if_pos hall] at hspec
      rw [if_pos hall, if_neg (by have := hall m hmm; omega)]
      simpa [new] using hspec
    · rw [if_neg hall] at hspec
      rw [if_neg hall]
      split
      · rfl
      · exact hspec

theorem growTo_spec (t : Nat) (data : List (BitVec 64)) (h : data.length ≤ t + 1) :
    (growTo t data).length = t + 1 ∧ ∀ i, bitAt (growTo t data) i = bitAt data i := by
  induction hk : t + 1 - data.length using Nat.strongRecOn generalizing data with
  | _ k ih =>
    rw [growTo]
    split
    · rename_i hge
      have := ih (t + 1 - (data ++ [0#64]).length) (by simp; omega) (data ++ [0#64]) (by simp; omega) rfl
      refine ⟨this.1, fun i => ?_⟩
      rw [this.2 i]
      unfold bitAt
      by_cases hl : i / 64 < data.length
      · simp [List.getD, List.getElem?_append_left hl]
      · rw [List.getD, List.getD, List.getElem?_append_right (by omega), List.getElem?_eq_none (by omega : data.length ≤ i/64)]
        cases hh : i / 64 - data.length with
        | zero => simp
        | succ k => simp
    · exact ⟨by omega, fun i => rfl⟩

theorem resize_spec {p : BinaryPool} (h : p.Inv) (n : Nat) :
    (p.resize n).Inv ∧ (p.resize n).len = max p.len n ∧ (p.resize n).members = p.members := by
  unfold resize
  split
  · rename_i hn
    exact ⟨h, by omega, rfl⟩
  · rename_i hn
    have hle : p.len / 64 ≤ n / 64 := Nat.div_le_div_right (by omega)
    obtain ⟨h1, h2⟩ := growTo_spec (n / 64) p.data (by rw [h.size]; omega)
    have hmem : (⟨n, p.nElements, growTo (n / 64) p.data⟩ : BinaryPool).members = p.members := by
      ext j
      rw [mem_members, mem_members_inv h]
      simp only [h2]
      constructor
      · exact fun a => a.2
      · intro a
        have := ((mem_members_inv h j).mpr a)
        rw [mem_members] at this
        exact ⟨by omega, a⟩
    refine ⟨⟨h1, ?_, ?_⟩, ?_, hmem⟩
    · intro i hi; rw [h2]; exact h.high i (by simp only at hi; omega)
    · rw [hmem]; exact h.card
    · simp only; omega

theorem zipWords_length (f : BitVec 64 → BitVec 64 → BitVec 64) (a b : List (BitVec 64)) :
    (zipWords f a b).length = a.length := by
  induction a generalizing b with
  | nil => simp [zipWords]
  | cons x xs ih => cases b with
    | nil => simp [zipWords]
    | cons y ys => simp [zipWords, ih]

theorem zipWords_bit (f : BitVec 64 → BitVec 64 → BitVec 64) (g : Bool → Bool → Bool)
    (hf : ∀ x y i, i < 64 → (f x y).getLsbD i = g (x.getLsbD i) (y.getLsbD i)) (hg : g false false = false)
    (a b : List (BitVec 64)) (hl : a.length = b.length) (i : Nat) :
    bitAt (zipWords f a b) i = g (bitAt a i) (bitAt b i) := by
  induction a generalizing b i with
  | nil => cases b with
    | nil => simp [zipWords, bitAt, hg]
    | cons _ _ => simp at hl
  | cons x xs ih => cases b with
    | nil => simp at hl
    | cons y ys =>
      simp only [zipWords]
      by_cases hi : i < 64
      · rw [bitAt_cons_lt _ _ _ hi, bitAt_cons_lt _ _ _ hi, bitAt_cons_lt _ _ _ hi, hf _ _ _ hi]
      · obtain ⟨k, rfl⟩ := Nat.exists_eq_add_of_le (by omega : 64 ≤ i)
        rw [bitAt_cons_add, bitAt_cons_add, bitAt_cons_add]
        exact ih _ (by simpa using hl) _

theorem union_spec {p q : BinaryPool} (hp : p.Inv) (hq : q.Inv) :
    if p.len = q.len then ∃ r, p.union q = some r ∧ r.Inv ∧ r.len = p.len ∧ r.members = p.members ∪ q.members
    else p.union q = none := by
  split
  · rename_i hl
    unfold union
    rw [if_neg (by simpa using hl)]
    refine ⟨_, rfl, ?_⟩
    have hbit := zipWords_bit (· ||| ·) (· || ·) (by intros; simp) rfl p.data q.data (by rw [hp.size, hq.size, hl])
    have hhigh : ∀ i, p.len ≤ i → bitAt (zipWords (· ||| ·) p.data q.data) i = false := by
      intro i hi; rw [hbit, hp.high i hi, hq.high i (by omega)]; rfl
    refine ⟨⟨?_, hhigh, ?_⟩, rfl, ?_⟩
    · simp only [zipWords_length]; exact hp.size
    · exact countAll_card ⟨p.len, 0, zipWords (· ||| ·) p.data q.data⟩ (by simp only [zipWords_length]; exact hp.size) hhigh
    · ext j
      rw [mem_members, Finset.mem_union, mem_members, mem_members]
      simp only [hbit, Bool.or_eq_true, ← hl]; tauto
  · rename_i hl; simp [union, hl]

theorem inter_spec {p q : BinaryPool} (hp : p.Inv) (hq : q.Inv) :
    if p.len = q.len then ∃ r, p.intersection q = some r ∧ r.Inv ∧ r.len = p.len ∧ r.members = p.members ∩ q.members
    else p.intersection q = none := by
  split
  · rename_i hl
    unfold intersection
    rw [if_neg (by simpa using hl)]
    refine ⟨_, rfl, ?_⟩
    have hbit := zipWords_bit (· &&& ·) (· && ·) (by intros; simp) rfl p.data q.data (by rw [hp.size, hq.size, hl])
    have hhigh : ∀ i, p.len ≤ i → bitAt (zipWords (· &&& ·) p.data q.data) i = false := by
      intro i hi; rw [hbit, hp.high i hi]; rfl
    refine ⟨⟨?_, hhigh, ?_⟩, rfl, ?_⟩
    · simp only [zipWords_length]; exact hp.size
    · exact countAll_card ⟨p.len, 0, zipWords (· &&& ·) p.data q.data⟩ (by simp only [zipWords_length]; exact hp.size) hhigh
    · ext j
      rw [mem_members, Finset.mem_inter, mem_members, mem_members]
      simp only [hbit, Bool.and_eq_true, ← hl]; tauto
  · rename_i hl; simp [intersection, hl]

theorem fill_spec {p : BinaryPool} (h : p.Inv) :
    ∃ r, p.fill = some r ∧ r.Inv ∧ r.len = p.len ∧ r.members = Finset.range p.len := by
  have := addAll_spec (List.range p.len) h
  rw [if_pos (by intro i hi; exact List.mem_range.mp hi)] at this
  obtain ⟨r, h1, h2, h3, h4⟩ := this
  refine ⟨r, h1, h2, h3, ?_⟩
  rw [h4]; ext j; simp [mem_members]
  intro h _; exact h

theorem zip_all_bits (a b : List (BitVec 64)) (hl : a.length = b.length) :
    ((a.zip b).all (fun xy => xy.1 &&& xy.2 == xy.1)) = true ↔ ∀ i, bitAt a i = true → bitAt b i = true := by
  induction a generalizing b with
  | nil => simp [bitAt]
  | cons x xs ih => cases b with
    | nil => simp at hl
    | cons y ys =>
      simp only [List.zip_cons_cons, List.all_cons, Bool.and_eq_true]
      rw [ih ys (by simpa using hl)]
      constructor
      · rintro ⟨h1, h2⟩ i
        by_cases hi : i < 64
        · rw [bitAt_cons_lt _ _ _ hi, bitAt_cons_lt _ _ _ hi]
          intro hx
          have := congrArg (fun v => v.getLsbD i) (eq_of_beq h1)
          simp [hx] at this; exact this
        · obtain ⟨k, rfl⟩ := Nat.exists_eq_add_of_le (by omega : 64 ≤ i)
          rw [bitAt_cons_add, bitAt_cons_add]
          exact h2 k
      · intro h
        constructor
        · apply beq_of_eq
          apply BitVec.eq_of_getLsbD_eq
          intro i hi
          have := h i
          rw [bitAt_cons_lt _ _ _ hi, bitAt_cons_lt _ _ _ hi] at this
          rw [BitVec.getLsbD_and]
          cases hx : x.getLsbD i
          · simp
          · simp [this hx]
        · intro i
          have := h (64 + i)
          rwa [bitAt_cons_add, bitAt_cons_add] at this

theorem isSubsetOf_spec {p q : BinaryPool} (hp : p.Inv) (hq : q.Inv) :
    p.isSubsetOf q = if p.len = q.len then some (decide (p.members ⊆ q.members)) else none := by
  unfold isSubsetOf
  split
  · rename_i h; simp [h]
  · rename_i h
    have h : p.len = q.len := by simpa using h
    rw [if_pos h]; congr 1
    rw [Bool.eq_iff_iff, zip_all_bits _ _ (by rw [hp.size, hq.size, h])]
    simp only [decide_eq_true_eq, Finset.subset_iff, mem_members_inv hp, mem_members_inv hq]

theorem ext_inv {p q : BinaryPool} (hp : p.Inv) (hq : q.Inv) (hl : p.len = q.len) (hm : p.members = q.members) :
    p = q := by
  have hd : p.data = q.data := by
    apply ext_bitAt _ _ (by rw [hp.size, hq.size, hl])
    intro i _
    rw [Bool.eq_iff_iff, ← mem_members_inv hp, ← mem_members_inv hq, hm]
  have hn : p.nElements = q.nElements := by rw [hp.card, hq.card, hm]
  cases p; cases q; simp at *; exact ⟨hl, hn, hd⟩

theorem iterNext_spec {p : BinaryPool} (h : p.Inv) (lo hi : Nat) (hh : hi = p.len) :
    ∃ r, p.iterNext lo hi = some r ∧
      match r with
      | (none, _) => (List.range' lo (hi - lo)).filter (· ∈ p.members) = []
      | (some x, lo') => lo' = x + 1 ∧ lo ≤ x ∧ x < hi ∧
          (List.range' lo (hi - lo)).filter (· ∈ p.members)
            = x :: (List.range' (x+1) (hi - (x+1))).filter (· ∈ p.members) := by
  induction hk : hi - lo using Nat.strongRecOn generalizing lo with
  | _ k ih =>
    rw [iterNext]
    split
    · rename_i hlt
      have hr : List.range' lo (hi - lo) = lo :: List.range' (lo + 1) (hi - (lo + 1)) := by
        have : hi - lo = (hi - (lo + 1)) + 1 := by omega
        rw [this, List.range'_succ]
      rw [contains_eq h, if_pos (by omega)]
      by_cases hm : lo ∈ p.members
      · simp only [hm, decide_true]
        refine ⟨_, rfl, rfl, le_refl _, hlt, ?_⟩
        rw [← hk, hr, List.filter_cons]; simp [hm]
      · simp only [hm, decide_false]
        obtain ⟨r, h1, h2⟩ := ih (hi - (lo + 1)) (by omega) (lo + 1) rfl
        refine ⟨r, h1, ?_⟩
        have hf : (List.range' lo (hi - lo)).filter (· ∈ p.members)
            = (List.range' (lo+1) (hi - (lo+1))).filter (· ∈ p.members) := by
          rw [hr, List.filter_cons]; simp [hm]
        rw [← hk, hf]
        match r, h2 with
        | (none, _), h2 => exact h2
        | (some x, lo'), h2 => exact ⟨h2.1, by omega, h2.2.2.1, h2.2.2.2⟩
    · refine ⟨_, rfl, ?_⟩
      have : hi - lo = 0 := by omega
      simp [← hk, this]

theorem drain_spec {p : BinaryPool} (h : p.Inv) (fuel lo : Nat) (hf : p.len - lo < fuel) :
    p.drain p.len fuel lo = some ((List.range' lo (p.len - lo)).filter (· ∈ p.members)) := by
  induction fuel generalizing lo with
  | zero => omega
  | succ fuel ih =>
    unfold drain
    obtain ⟨r, h1, h2⟩ := iterNext_spec h lo p.len rfl
    rw [h1]
    match r, h2 with
    | (none, _), h2 => simp only; rw [h2]
    | (some x, lo'), h2 =>
      obtain ⟨e, hle, hlt, he⟩ := h2
      subst e
      simp only
      rw [ih (x + 1) (by omega), he]; rfl

theorem toList_spec {p : BinaryPool} (h : p.Inv) :
    p.toList = some ((List.range p.len).filter (· ∈ p.members)) := by
  unfold toList
  rw [drain_spec h _ _ (by omega), List.range_eq_range']
  simp

end BinaryPool
end Toppo
