import Verif.Proofs.BfvEncode
/- Indices that SIMD encoding never writes. -/
namespace OnionPIR.Plaintext

variable {K : Nat} {P : BfvParameters}

theorem scatter_unused (h : SimdWF K P) {values : List Nat} (hv : 2 ^ K ≤ values.length) {e : List Nat}
    (he : scatter P values (List.replicate P.degree 0) = .ok e) {k : Nat} (hk : k < 2 ^ K)
    (hu : ∀ i, i < 2 ^ K → P.matrixRepsIndexMap.getD i 0 ≠ k) : e.getD k 0 = 0 := by
  obtain ⟨m1, m2⟩ := h.map
  unfold scatter at he
  rw [h.deg] at he
  obtain ⟨e', he', i1, i2⟩ := foldR_range_ok (f := fun enc i => do
      let k ← idx P.matrixRepsIndexMap i
      let v ← idx values i
      setR enc k v) (n := 2 ^ K) (s := List.replicate (2 ^ K) 0)
    (fun _ (e : List Nat) => e.length = 2 ^ K ∧ e.getD k 0 = 0)
    ⟨by simp, by simp [List.getD, hk]⟩ (by
      rintro j e hj ⟨h1, h2⟩
      have hmj := m2 j hj
      rw [idx_getD (by omega), res_ok_bind, idx_getD (by omega), res_ok_bind, setR_ok (by omega)]
      refine ⟨_, rfl, by simp [h1], ?_⟩
      rw [Poly.getD_set (by omega), if_neg (hu j hj), h2])
  obtain rfl := Except.ok.inj (he.symm.trans he')
  exact i2

end OnionPIR.Plaintext
