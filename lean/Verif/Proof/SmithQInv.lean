import Verif.Proof.SmithFix
set_option linter.unusedVariables false

/-
The divisibility phase of `smith_normal_form` and the matrix `Q_inv * Q`: either the phase does nothing, or an entry above the
diagonal of `Q_inv * Q` is non-zero when it ends.
-/
namespace Toppo.Smith
open Toppo Toppo.PIDProps

variable {n m R : Nat} {A0 : M}

/-- the row `i` of `Q_inv * Q` after one repair of `(r, s)`, for the rows that the repair leaves alone in `Q_inv` -/
theorem fix_row {st st' : St} {r s : Nat} {c d : Int} (hrs : r ≠ s)
    (hq : st'.q = colOp (colOp st.q r s 1) s r c) (hqi : st'.qinv = rowOp (rowOp st.qinv s r (-1)) s r d) {i : Nat} (hi : i ≠ s) :
    mul m st'.qinv st'.q i r = mul m st.qinv st.q i r + mul m st.qinv st.q i s ∧
    mul m st'.qinv st'.q i s = mul m st.qinv st.q i s + (mul m st.qinv st.q i r + mul m st.qinv st.q i s) * c ∧
    ∀ j, j ≠ r → j ≠ s → mul m st'.qinv st'.q i j = mul m st.qinv st.q i j := by
  have h0 : ∀ j, mul m st'.qinv st'.q i j = mul m st.qinv st'.q i j := by
    intro j; apply mul_congr_left; intro c _; rw [hqi]; simp [rowOp, hi]
  have hr : ∀ x < m, st'.q x r = 1 * st.q x r + 1 * st.q x s := by
    intro x _; rw [hq]; simp [colOp, hrs]
  have hs : ∀ x < m, st'.q x s = c * st.q x r + (1 + c) * st.q x s := by
    intro x _; rw [hq]; simp [colOp, hrs, hrs.symm]; ring
  refine ⟨?_, ?_, ?_⟩
  · rw [h0, mul_comb_right hr]; ring
  · rw [h0, mul_comb_right hs]; ring
  · intro j h1 h2
    rw [h0]; apply mul_congr_right; intro x _; rw [hq]; simp [colOp, h1, h2]

/-- either the phase changes nothing, or `Q_inv * Q` ends with a non-zero entry above the diagonal -/
theorem fixLoop_qinv {st : St} (hD : DiagS n m R st.a) (hS : SyncW n m A0 st) (hQ : Inv m st.qinv st.q) :
    ∃ st', fixLoop R st = some st' ∧ ((st' = st ∧ ∀ q t, q < t → t < R → st.a q q ∣ st.a t t) ∨
      ∃ i j, i < j ∧ j < R ∧ mul m st'.qinv st'.q i j ≠ 0) := by
  have hm := hD.hm
  obtain ⟨st', h1, h2, h3, h4⟩ := foldlM_rng
    (fun r (s : St) => DiagS n m R s.a ∧ SyncW n m A0 s ∧ ((s = st ∧ ∀ q, q < r → ∀ t, q < t → t < R → st.a q q ∣ st.a t t) ∨
      ∃ i j, i < r ∧ i < j ∧ j < R ∧ mul m s.qinv s.q i j ≠ 0))
    (fun st r => (rng (r + 1) R).foldlM (fixStep r) st) R
    (by
      rintro r s hr ⟨a1, a2, ⟨rfl, a3⟩ | a3⟩
      · obtain ⟨s', b1, b2, b3, b4, b5⟩ := foldlM_rng
          (fun k (s' : St) => r < k ∧ DiagS n m R s'.a ∧ SyncW n m A0 s' ∧
            ((s' = s ∧ ∀ t, r < t → t < k → s.a r r ∣ s.a t t) ∨
              (mul m s'.qinv s'.q r r = 1 ∧ (∀ j, k ≤ j → j < R → mul m s'.qinv s'.q r j = 0) ∧
                ∃ j, r < j ∧ j < R ∧ mul m s'.qinv s'.q r j ≠ 0 ∧ j < k)))
          (fixStep r) R
          (by
            rintro k s' hk ⟨c0, c1, c2, c3⟩
            by_cases hd : s'.a r r ∣ s'.a k k
            · refine ⟨s', fixStep_dvd (c1.nz r (by omega)) hd, by omega, c1, c2, ?_⟩
              rcases c3 with ⟨rfl, c3⟩ | ⟨c3, c4, j, c5, c6, c7, c8⟩
              · refine Or.inl ⟨rfl, fun t h1 h2 => ?_⟩
                by_cases e : t = k
                · rw [e]; exact hd
                · exact c3 t h1 (by omega)
              · exact Or.inr ⟨c3, fun j h1 h2 => c4 j (by omega) h2, j, c5, c6, c7, by omega⟩
            · obtain ⟨s2, d1, d2, d3, _⟩ := fixStep_inv c1 c2 c0 hk
              obtain ⟨s3, g, z, w, y, f1, f2, f3, f4, f5, f6, f7, f8, f9, fq, fqi⟩ := fixStep_spec c1 c2 c0 hk hd
              have e : s2 = s3 := by rw [d1] at f1; exact Option.some.inj f1
              subst e
              obtain ⟨g1, g2, g3⟩ := fix_row (m := m) (show r ≠ k by omega) fq fqi (show r ≠ k by omega)
              have hone : mul m s'.qinv s'.q r r = 1 ∧ ∀ j, k ≤ j → j < R → mul m s'.qinv s'.q r j = 0 := by
                rcases c3 with ⟨rfl, c3⟩ | ⟨c3, c4, _⟩
                · refine ⟨by rw [hQ r r (by omega) (by omega)]; simp [ident], fun j h1 h2 => ?_⟩
                  rw [hQ r j (by omega) (by omega)]; simp [ident]; omega
                · exact ⟨c3, c4⟩
              obtain ⟨o1, o2⟩ := hone
              have o3 := o2 k (le_refl _) hk
              refine ⟨s2, d1, by omega, d2, d3, Or.inr ⟨by rw [g1, o1, o3]; rfl, ?_, k, c0, hk, ?_, by omega⟩⟩
              · intro j h1 h2
                rw [g3 j (by omega) (by omega)]; exact o2 j (by omega) h2
              · rw [g2, o1, o3]
                intro hz
                exact f5 (by linarith))
          (r + 1) s (by omega) ⟨by omega, a1, a2, Or.inl ⟨rfl, fun t h1 h2 => by omega⟩⟩
        refine ⟨s', b1, b3, b4, ?_⟩
        rcases b5 with ⟨rfl, b5⟩ | ⟨_, _, j, b5, b6, b7, _⟩
        · refine Or.inl ⟨rfl, fun q hq t h1 h2 => ?_⟩
          by_cases e : q = r
          · subst e; exact b5 t h1 h2
          · exact a3 q (by omega) t h1 h2
        · exact Or.inr ⟨r, j, by omega, b5, b6, b7⟩
      · obtain ⟨i, j0, hi, hij, hjR, hne⟩ := a3
        obtain ⟨s', b1, b2, b3, b4, j, b5, b6, b7⟩ := foldlM_rng
          (fun k (s' : St) => r < k ∧ DiagS n m R s'.a ∧ SyncW n m A0 s' ∧ ∃ j, i < j ∧ j < R ∧ mul m s'.qinv s'.q i j ≠ 0)
          (fixStep r) R
          (by
            rintro k s' hk ⟨c0, c1, c2, j, c3, c4, c5⟩
            by_cases hd : s'.a r r ∣ s'.a k k
            · exact ⟨s', fixStep_dvd (c1.nz r (by omega)) hd, by omega, c1, c2, j, c3, c4, c5⟩
            · obtain ⟨s2, d1, d2, d3, _⟩ := fixStep_inv c1 c2 c0 hk
              obtain ⟨s3, g, z, w, y, f1, f2, f3, f4, f5, f6, f7, f8, f9, fq, fqi⟩ := fixStep_spec c1 c2 c0 hk hd
              have e : s2 = s3 := by rw [d1] at f1; exact Option.some.inj f1
              subst e
              obtain ⟨g1, g2, g3⟩ := fix_row (m := m) (show r ≠ k by omega) fq fqi (show i ≠ k by omega)
              refine ⟨s2, d1, by omega, d2, d3, ?_⟩
              by_contra hall
              push Not at hall
              have k1 := hall r hi hr
              have k2 := hall k (by omega) hk
              rw [g1] at k1
              rw [g2, k1, zero_mul, add_zero] at k2
              rw [k2, add_zero] at k1
              by_cases e1 : j = r
              · rw [e1] at c5; exact c5 k1
              · by_cases e2 : j = k
                · rw [e2] at c5; exact c5 k2
                · have := hall j c3 c4
                  rw [g3 j e1 e2] at this; exact c5 this)
          (r + 1) s (by omega) ⟨by omega, a1, a2, j0, hij, hjR, hne⟩
        exact ⟨s', b1, b3, b4, Or.inr ⟨i, j, by omega, b5, b6, b7⟩⟩)
    0 st (by omega) ⟨hD, hS, Or.inl ⟨rfl, fun q hq => by omega⟩⟩
  refine ⟨st', h1, ?_⟩
  rcases h4 with ⟨h4, h5⟩ | ⟨i, j, h5, h6, h7, h8⟩
  · exact Or.inl ⟨h4, fun q t h h' => h5 q (by omega) t h h'⟩
  · exact Or.inr ⟨i, j, h6, h7, h8⟩

end Toppo.Smith
