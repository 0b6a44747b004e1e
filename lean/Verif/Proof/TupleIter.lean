import Verif.Model.TupleIter
import Mathlib.Data.List.Lex
import Mathlib.Order.Basic
import Mathlib.Data.Finset.Card
import Mathlib.Tactic.Ring
import Mathlib.Tactic.Linarith
set_option linter.unusedSimpArgs false

namespace Toppo.TupleIterator

/-- valid index tuple -/
def Valid (n k : Nat) (t : List Nat) : Prop := t.length = k ∧ t.Pairwise (· < ·) ∧ ∀ x ∈ t, x < n

theorem lex_range_le (a : Nat) (c : List Nat) (hc : c.Pairwise (· < ·)) (ha : ∀ x ∈ c, a ≤ x) :
    List.range' a c.length ≤ c := by
  induction c generalizing a with
  | nil => simp
  | cons y c ih =>
    rw [List.length_cons, List.range'_succ]
    have hy := ha y List.mem_cons_self
    rw [List.pairwise_cons] at hc
    rcases Nat.lt_or_ge a y with h | h
    · exact le_of_lt (List.Lex.rel h)
    · have : y = a := by omega
      subst this
      have h2 := ih (y + 1) hc.2 (fun x hx => hc.1 x hx)
      rcases lt_or_eq_of_le h2 with h3 | h3
      · exact le_of_lt (List.Lex.cons h3)
      · rw [h3]

theorem pair_bound {n : Nat} : ∀ (c : List Nat), c.Pairwise (· < ·) → (∀ x ∈ c, x < n) → c.length ≤ n := by
  intro c hc hn
  have hnd : c.Nodup := hc.imp (fun h => Nat.ne_of_lt h)
  have h1 : c.toFinset ⊆ Finset.range n := by
    intro x hx; simp at hx ⊢; exact hn x hx
  have := Finset.card_le_card h1
  rw [List.toFinset_card_of_nodup hnd] at this
  simpa using this

theorem head_bound {n y : Nat} {c : List Nat} (hc : (y :: c).Pairwise (· < ·)) (hn : ∀ x ∈ y :: c, x < n) :
    y + (c.length + 1) ≤ n := by
  induction c generalizing y with
  | nil => have := hn y (by simp); simp; omega
  | cons z c ih =>
    rw [List.pairwise_cons] at hc
    have h1 := ih hc.2 (fun x hx => hn x (List.mem_cons_of_mem _ hx))
    have h2 := hc.1 z List.mem_cons_self
    simp only [List.length_cons] at *; omega

theorem lex_le_range (n : Nat) (c : List Nat) (hc : c.Pairwise (· < ·)) (hn : ∀ x ∈ c, x < n) :
    c ≤ List.range' (n - c.length) c.length := by
  induction c with
  | nil => simp
  | cons y c ih =>
    have hb := head_bound hc hn
    rw [List.length_cons, List.range'_succ]
    rw [List.pairwise_cons] at hc
    rcases Nat.lt_or_ge y (n - (c.length + 1)) with h | h
    · exact le_of_lt (List.Lex.rel h)
    · have he : y = n - (c.length + 1) := by omega
      have h2 := ih hc.2 (fun x hx => hn x (List.mem_cons_of_mem _ hx))
      have h3 : n - (c.length + 1) + 1 = n - c.length := by omega
      rw [h3, ← he]
      rcases lt_or_eq_of_le h2 with h3 | h3
      · exact le_of_lt (List.Lex.cons h3)
      · exact le_of_eq (congrArg (y :: ·) h3)

theorem cons_lt_cons_same {x : Nat} {a b : List Nat} : x :: a < x :: b ↔ a < b := by
  constructor
  · intro h
    cases h with
    | rel h => exact absurd h (lt_irrefl _)
    | cons h => exact h
  · exact fun h => List.Lex.cons h

theorem append_lt_append {p a b : List Nat} : p ++ a < p ++ b ↔ a < b := by
  induction p with
  | nil => simp
  | cons x p ih => rw [List.cons_append, List.cons_append, cons_lt_cons_same, ih]

/-- the lexicographic successor: nothing valid lies strictly between -/
theorem no_between {n k : Nat} (p : List Nat) (x m : Nat)
    (s : List Nat) (hs : Valid n k s) (hk : p.length + 1 + m = k)
    (h1 : p ++ x :: List.range' (n - m) m < s) : p ++ List.range' (x + 1) (m + 1) ≤ s := by
  obtain ⟨hl, hp, hn⟩ := hs
  induction p generalizing s k with
  | nil =>
    simp only [List.nil_append] at h1 ⊢
    cases s with
    | nil => simp at hl; subst hl; simp at hk
    | cons y c =>
      have hcl : c.length = m := by simp at hl hk; omega
      cases h1 with
      | rel h =>
        have := lex_range_le (x + 1) (y :: c) hp (by
          intro z hz
          rcases List.mem_cons.mp hz with e | e
          · omega
          · rw [List.pairwise_cons] at hp; have := hp.1 z e; omega)
        rwa [List.length_cons, hcl] at this
      | cons h =>
        exfalso
        rw [List.pairwise_cons] at hp
        have := lex_le_range n c hp.2 (fun z hz => hn z (List.mem_cons_of_mem _ hz))
        rw [hcl] at this
        exact absurd h (not_lt.mpr this)
  | cons z p ih =>
    cases s with
    | nil => simp at hl; subst hl; simp at hk
    | cons y c =>
      rw [List.cons_append] at h1 ⊢
      cases h1 with
      | rel h => exact le_of_lt (List.Lex.rel h)
      | cons h =>
        rw [List.pairwise_cons] at hp
        have := ih (k := k - 1) c (by simp only [List.length_cons] at hk; omega) h (by simp at hl; omega) hp.2
          (fun w hw => hn w (List.mem_cons_of_mem _ hw))
        rcases lt_or_eq_of_le this with h3 | h3
        · exact le_of_lt (List.Lex.cons h3)
        · rw [← h3]

theorem succ_valid {n k : Nat} (p : List Nat) (x m : Nat)
    (hv : Valid n k (p ++ x :: List.range' (n - m) m)) (hx : x + 1 < n - m ∨ (m = 0 ∧ x + 1 < n)) :
    Valid n k (p ++ List.range' (x + 1) (m + 1)) := by
  obtain ⟨hl, hp, hn⟩ := hv
  refine ⟨?_, ?_, ?_⟩
  · simp at hl ⊢; omega
  · rw [List.pairwise_append] at hp ⊢
    refine ⟨hp.1, List.pairwise_lt_range', ?_⟩
    intro a ha b hb
    have := hp.2.2 a ha x List.mem_cons_self
    rw [List.mem_range'_1] at hb
    omega
  · intro y hy
    rcases List.mem_append.mp hy with h | h
    · exact hn y (List.mem_append_left _ h)
    · rw [List.mem_range'_1] at h
      omega

theorem lt_succ (n : Nat) (p : List Nat) (x m : Nat) :
    p ++ x :: List.range' (n - m) m < p ++ List.range' (x + 1) (m + 1) := by
  rw [append_lt_append, List.range'_succ]
  exact List.Lex.rel (by omega)

/-! ### the code computes the successor -/

theorem backUp_spec (n : Nat) (t : List Nat) (hp : t.Pairwise (· < ·)) :
    ∀ cur, cur < t.length → t.drop cur = List.range' (n - (t.length - cur)) (t.length - cur) →
      t.length ≤ n →
      ∃ c, backUp t cur = some c ∧ c ≤ cur ∧ t.drop c = List.range' (n - (t.length - c)) (t.length - c) ∧
        (c = 0 ∨ ∃ x, t[c - 1]? = some x ∧ x + 1 < n - (t.length - c)) := by
  intro cur
  induction cur with
  | zero => intro h1 h2 _; exact ⟨0, rfl, le_refl _, h2, Or.inl rfl⟩
  | succ cur ih =>
    intro h1 h2 hle
    have hc : cur < t.length := by omega
    have hx : t[cur + 1] = n - (t.length - (cur + 1)) := by
      have := congrArg (fun l => l[0]?) h2
      simp only [List.getElem?_drop, Nat.add_zero, List.getElem?_eq_getElem h1] at this
      rw [List.getElem?_range' (by omega)] at this
      simpa using this
    have hlt : t[cur] < t[cur + 1] := List.pairwise_iff_getElem.mp hp cur (cur + 1) hc h1 (by omega)
    unfold backUp
    simp only [List.getElem?_eq_getElem h1, List.getElem?_eq_getElem hc, Option.bind_eq_bind, Option.bind_some, csub,
      le_of_lt hlt, if_true]
    split
    · rename_i hd
      obtain ⟨c, e1, e2, e3, e4⟩ := ih hc (by
        rw [List.drop_eq_getElem_cons hc, h2]
        have : t.length - cur = (t.length - (cur + 1)) + 1 := by omega
        rw [this, List.range'_succ]
        have hh : n - (t.length - (cur + 1) + 1) = t[cur] := by omega
        rw [hh]
        congr 1
        congr 1
        omega) hle
      exact ⟨c, e1, by omega, e3, e4⟩
    · rename_i hd
      refine ⟨cur + 1, rfl, le_refl _, h2, Or.inr ⟨t[cur], by simp [List.getElem?_eq_getElem hc], ?_⟩⟩
      omega

theorem foldl_subAt (d : Nat) (post : List Nat) : ∀ (pre : List Nat), (∀ x ∈ post, d ≤ x) →
    (List.range' pre.length post.length).foldlM (subAt d) (pre ++ post) = some (pre ++ post.map (· - d)) := by
  induction post with
  | nil => intro pre _; simp
  | cons x post ih =>
    intro pre h
    rw [List.length_cons, List.range'_succ, List.foldlM_cons]
    have h1 : subAt d (pre ++ x :: post) pre.length = some (pre ++ (x - d) :: post) := by
      simp [subAt, csub, h x List.mem_cons_self]
    rw [h1]
    have := ih (pre ++ [x - d]) (fun y hy => h y (List.mem_cons_of_mem _ hy))
    simp only [List.length_append, List.length_cons, List.length_nil, List.append_assoc, List.cons_append,
      List.nil_append, Nat.zero_add] at this
    simp only [Option.bind_eq_bind, Option.bind_some, this, List.map_cons]

theorem fetch_some {α : Type} (data : List α) (t : List Nat) (h : ∀ x ∈ t, x < data.length) :
    ∃ out, fetch data t = some out ∧ t.map (fun i => data[i]?) = out.map some := by
  induction t with
  | nil => exact ⟨[], rfl, rfl⟩
  | cons i t ih =>
    obtain ⟨out, h1, h2⟩ := ih (fun x hx => h x (List.mem_cons_of_mem _ hx))
    have hi := h i List.mem_cons_self
    refine ⟨data[i] :: out, by simp [fetch, h1, List.getElem?_eq_getElem hi], ?_⟩
    rw [List.map_cons, List.map_cons, h2, List.getElem?_eq_getElem hi]

/-- one `next` on a live state -/
theorem next_spec {α : Type} (s : TupleIterator α) (k : Nat) (hk : 1 ≤ k) (hv : Valid s.data.length k s.indeces)
    (hcur : s.currIdx = k - 1) (hd : s.isDone = false) :
    ∃ out s', s.next = some (some out, s') ∧ fetch s.data s.indeces = some out ∧ s'.data = s.data ∧
      ((s'.isDone = true ∧ ∀ u, Valid s.data.length k u → u ≤ s.indeces) ∨
       (s'.isDone = false ∧ s'.currIdx = k - 1 ∧ Valid s.data.length k s'.indeces ∧ s.indeces < s'.indeces ∧
        ∀ u, Valid s.data.length k u → s.indeces < u → s'.indeces ≤ u)) := by
  obtain ⟨out, ho, _⟩ := fetch_some s.data s.indeces hv.2.2
  obtain ⟨hl, hp, hn⟩ := hv
  have hkn := pair_bound s.indeces hp hn
  rw [hl] at hkn
  have hlast : k - 1 < s.indeces.length := by omega
  have hlx := hn _ (List.getElem_mem hlast)
  unfold next
  rw [if_neg (by simp [hd])]
  have hblk : s.isBlocked = some (decide (s.indeces[k - 1] ≥ s.data.length - 1)) := by
    unfold isBlocked
    simp [csub, hl, hk, hcur, List.getElem?_eq_getElem hlast, (by omega : 1 ≤ s.data.length)]
  simp only [ho, hblk, Option.bind_eq_bind, Option.bind_some]
  by_cases hb : s.indeces[k - 1] ≥ s.data.length - 1
  · rw [if_pos (by simpa using hb)]
    have hdrop : s.indeces.drop (k - 1) = List.range' (s.data.length - (s.indeces.length - (k - 1))) (s.indeces.length - (k - 1)) := by
      have h1 : s.indeces.length - (k - 1) = 1 := by omega
      rw [h1, List.drop_eq_getElem_cons hlast, List.drop_eq_nil_of_le (by omega)]
      simp; omega
    obtain ⟨c, e1, e2, e3, e4⟩ := backUp_spec s.data.length s.indeces hp (k - 1) hlast hdrop (by omega)
    rw [hcur, e1]
    simp only [Option.bind_some]
    by_cases hc0 : c = 0
    · rw [if_pos hc0]
      refine ⟨out, _, rfl, rfl, rfl, Or.inl ⟨rfl, ?_⟩⟩
      intro u hu
      subst hc0
      simp only [List.drop_zero, Nat.sub_zero, hl] at e3
      have := lex_le_range s.data.length u hu.2.1 hu.2.2
      rw [hu.1] at this
      rwa [e3]
    · rw [if_neg hc0]
      rcases e4 with e4 | ⟨x, hx, hxb⟩
      · exact absurd e4 hc0
      · have hc1 : c - 1 < s.indeces.length := by omega
        have hxe : s.indeces[c - 1] = x := by
          rw [List.getElem?_eq_getElem hc1] at hx; injection hx
        -- shape of the list
        have hshape : s.indeces = s.indeces.take (c - 1) ++ x :: List.range' (s.data.length - (k - c)) (k - c) := by
          conv_lhs => rw [← List.take_append_drop (c - 1) s.indeces]
          congr 1
          rw [List.drop_eq_getElem_cons hc1, hxe]
          have : c - 1 + 1 = c := by omega
          rw [this, e3, hl]
        set p := s.indeces.take (c - 1) with hpdef
        have hpl : p.length = c - 1 := by rw [hpdef, List.length_take]; omega
        set m := k - c with hm
        have hxb' : x + 1 < s.data.length - m := by rw [hl] at hxb; exact hxb
        have hset : s.indeces.set (c - 1) (x + 1) = p ++ (x + 1) :: List.range' (s.data.length - m) m := by
          rw [hshape, List.set_append_right _ _ (by omega), hpl]; simp
        have hm1 : 1 ≤ m := by omega
        have hget : (s.indeces.set (c - 1) (x + 1))[c]? = some (s.data.length - m) := by
          rw [hset, List.getElem?_append_right (by omega), hpl]
          have : c - (c - 1) = 1 := by omega
          rw [this, List.getElem?_cons_succ, List.getElem?_range' (by omega)]; simp
        simp only [hx, Option.bind_some, hget, csub]
        rw [if_pos (by omega : x + 1 ≤ s.data.length - m)]
        simp only [Option.bind_some]
        rw [if_pos (by omega : 1 ≤ s.data.length - m - (x + 1))]
        simp only [Option.bind_some]
        have hfold := foldl_subAt (s.data.length - m - (x + 1) - 1) (List.range' (s.data.length - m) m) (p ++ [x + 1])
          (by intro y hy; rw [List.mem_range'_1] at hy; omega)
        have hlen1 : (p ++ [x + 1]).length = c := by simp [hpl]; omega
        have hlen2 : (s.indeces.set (c - 1) (x + 1)).length - c = m := by simp [hl]; omega
        rw [hlen1, List.length_range', List.append_assoc, List.singleton_append, ← hset] at hfold
        rw [hlen2, hfold]
        have hmap : (List.range' (s.data.length - m) m).map (· - (s.data.length - m - (x + 1) - 1)) = List.range' (x + 2) m := by
          apply List.ext_getElem
          · simp
          · intro i h1 h2
            simp; omega
        have hres : p ++ [x + 1] ++ (List.range' (s.data.length - m) m).map (· - (s.data.length - m - (x + 1) - 1))
            = p ++ List.range' (x + 1) (m + 1) := by
          rw [hmap, List.append_assoc, List.singleton_append, List.range'_succ]
        rw [hres]
        have hlen3 : (p ++ List.range' (x + 1) (m + 1)).length = k := by simp [hpl]; omega
        simp only [Option.bind_some, hlen3, hk, if_true]
        refine ⟨out, _, rfl, rfl, rfl, Or.inr ⟨hd, rfl, ?_, ?_, ?_⟩⟩
        · apply succ_valid p x m _ (Or.inl hxb')
          rw [← hshape]; exact ⟨hl, hp, hn⟩
        · simp only
          rw [hshape]; exact lt_succ _ p x m
        · intro u hu hlt
          rw [hshape] at hlt
          exact no_between p x m u hu (by omega) hlt
  · rw [if_neg (by simpa using hb)]
    rw [hcur, List.getElem?_eq_getElem hlast]
    simp only [Option.bind_some]
    set x := s.indeces[k - 1] with hxdef
    have hshape : s.indeces = s.indeces.take (k - 1) ++ x :: List.range' (s.data.length - 0) 0 := by
      conv_lhs => rw [← List.take_append_drop (k - 1) s.indeces]
      congr 1
      rw [List.drop_eq_getElem_cons hlast, List.drop_eq_nil_of_le (by omega)]; simp [hxdef]
    have hpl : (s.indeces.take (k - 1)).length = k - 1 := by rw [List.length_take]; omega
    have hset : s.indeces.set (k - 1) (x + 1) = s.indeces.take (k - 1) ++ List.range' (x + 1) 1 := by
      conv_lhs => rw [hshape]
      rw [List.set_append_right _ _ (by omega), hpl]; simp
    rw [hset]
    refine ⟨out, _, rfl, rfl, rfl, Or.inr ⟨hd, rfl, ?_, ?_, ?_⟩⟩
    · apply succ_valid (s.indeces.take (k - 1)) x 0 _ (Or.inr ⟨rfl, by omega⟩)
      rw [← hshape]; exact ⟨hl, hp, hn⟩
    · simp only
      conv_lhs => rw [hshape]
      exact lt_succ _ _ x 0
    · intro u hu hlt
      rw [hshape] at hlt
      exact no_between _ x 0 u hu (by omega) hlt

/-- numeric value used as termination measure -/
def val (n : Nat) : List Nat → Nat
  | [] => 0
  | x :: xs => x * n ^ xs.length + val n xs

theorem val_lt (n : Nat) (t : List Nat) (h : ∀ x ∈ t, x < n) : val n t < n ^ t.length := by
  induction t with
  | nil => simp [val]
  | cons x t ih =>
    have h1 := ih (fun y hy => h y (List.mem_cons_of_mem _ hy))
    have h2 := h x List.mem_cons_self
    simp only [val, List.length_cons, pow_succ]
    calc x * n ^ t.length + val n t < x * n ^ t.length + n ^ t.length := by omega
      _ = (x + 1) * n ^ t.length := by ring
      _ ≤ n * n ^ t.length := Nat.mul_le_mul_right _ h2
      _ = n ^ t.length * n := by ring

theorem val_mono (n : Nat) (t u : List Nat) (hl : t.length = u.length) (ht : ∀ x ∈ t, x < n)
    (h : t < u) : val n t < val n u := by
  induction t generalizing u with
  | nil => cases u with
    | nil => exact absurd h (lt_irrefl _)
    | cons _ _ => simp at hl
  | cons x t ih =>
    cases u with
    | nil => simp at hl
    | cons y u =>
      have hl' : t.length = u.length := by simpa using hl
      simp only [val]
      cases h with
      | rel h =>
        have := val_lt n t (fun z hz => ht z (List.mem_cons_of_mem _ hz))
        calc x * n ^ t.length + val n t < x * n ^ t.length + n ^ t.length := by omega
          _ = (x + 1) * n ^ t.length := by ring
          _ ≤ y * n ^ t.length := Nat.mul_le_mul_right _ h
          _ = y * n ^ u.length := by rw [hl']
          _ ≤ _ := Nat.le_add_right _ _
      | cons h =>
        have := ih u hl' (fun z hz => ht z (List.mem_cons_of_mem _ hz)) h
        rw [hl']; omega

theorem collect_spec {α : Type} (k : Nat) (hk : 1 ≤ k) : ∀ (fuel : Nat) (s : TupleIterator α),
    Valid s.data.length k s.indeces → s.currIdx = k - 1 → s.isDone = false →
    s.data.length ^ k + 1 ≤ fuel + val s.data.length s.indeces →
    ∃ (L : List (List Nat)) (out : List (List α)), collect fuel s = some out ∧
      L.map (fetch s.data) = out.map some ∧
      L.Pairwise (· < ·) ∧ ∀ u, u ∈ L ↔ Valid s.data.length k u ∧ s.indeces ≤ u := by
  intro fuel
  induction fuel with
  | zero =>
    intro s hv _ _ hf
    have := val_lt _ _ hv.2.2
    rw [hv.1] at this; omega
  | succ fuel ih =>
    intro s hv hc hd hf
    obtain ⟨o, s', h1, h2, h3, h4⟩ := next_spec s k hk hv hc hd
    unfold collect
    rw [h1]
    simp only
    rcases h4 with ⟨h5, h6⟩ | ⟨h5, h6, h7, h8, h9⟩
    · have : collect fuel s' = some [] := by
        have hf0 : 1 ≤ fuel := by
          have := val_lt _ _ hv.2.2
          rw [hv.1] at this; omega
        obtain ⟨f, rfl⟩ := Nat.exists_eq_add_of_le hf0
        rw [Nat.add_comm, collect, next, if_pos h5]
      rw [this]
      refine ⟨[s.indeces], [o], rfl, by simp [h2], by simp, ?_⟩
      intro u
      simp only [List.mem_singleton]
      constructor
      · rintro rfl; exact ⟨hv, le_refl _⟩
      · rintro ⟨a, b⟩; exact le_antisymm (h6 u a) b
    · have hmono := val_mono s.data.length s.indeces s'.indeces (by rw [hv.1, h7.1]) hv.2.2 h8
      obtain ⟨L, out, e1, e2, e3, e4⟩ := ih s' (by rw [h3]; exact h7) h6 h5 (by rw [h3]; omega)
      rw [e1]
      rw [h3] at e2 e4
      refine ⟨s.indeces :: L, o :: out, rfl, by simp [h2, e2], ?_, ?_⟩
      · rw [List.pairwise_cons]
        exact ⟨fun u hu => lt_of_lt_of_le h8 ((e4 u).mp hu).2, e3⟩
      · intro u
        rw [List.mem_cons, e4]
        constructor
        · rintro (rfl | ⟨a, b⟩)
          · exact ⟨hv, le_refl _⟩
          · exact ⟨a, le_trans (le_of_lt h8) b⟩
        · rintro ⟨a, b⟩
          rcases eq_or_lt_of_le b with e | e
          · exact Or.inl e.symm
          · exact Or.inr ⟨a, h9 u a e⟩

end Toppo.TupleIterator
