import Verif.Model.Omr
import Verif.Proofs.BfvParams
/- The copying loops of `process`. -/
namespace OnionPIR.Omr

theorem fill_ok {comp : PvwCiphertext → List Nat} {clues : List PvwCiphertext} {k D : Nat} (hD : clues.length ≤ D)
    (hk : ∀ c ∈ clues, k < (comp c).length) :
    foldR (fillStep comp clues k) (List.replicate D 0) (List.range clues.length) =
      .ok (clues.map (fun c => (comp c).getD k 0) ++ List.replicate (D - clues.length) 0) := by
  obtain ⟨s, h1, h2⟩ := foldR_range_ok (f := fillStep comp clues k) (n := clues.length) (s := List.replicate D 0)
    (fun i s => s = (clues.take i).map (fun c => (comp c).getD k 0) ++ List.replicate (D - i) 0) (by simp)
    (by
      rintro i s hi rfl
      have hc := hk clues[i] (List.getElem_mem hi)
      have hl : (List.map (fun c => (comp c).getD k 0) (clues.take i)).length = i := by simp; omega
      refine ⟨_, ?_, rfl⟩
      unfold fillStep
      rw [idx_ok hi, res_ok_bind, idx_getD 0 hc, res_ok_bind, if_pos (by rw [List.length_append, hl, List.length_replicate]; omega)]
      congr 1
      rw [List.set_append_right _ _ (by omega), hl, Nat.sub_self, List.take_succ_eq_append_getElem hi,
        show D - i = (D - (i + 1)) + 1 by omega, List.replicate_succ, List.set_cons_zero]
      rw [List.map_append, List.append_assoc]
      rfl)
  rw [h1, h2]; simp

theorem fill_overflow {comp : PvwCiphertext → List Nat} {clues : List PvwCiphertext} {k D : Nat} (hD : D < clues.length)
    (hk : ∀ c ∈ clues, k < (comp c).length) :
    foldR (fillStep comp clues k) (List.replicate D 0) (List.range clues.length) = .error .bounds := by
  obtain ⟨s, h1, h2⟩ := foldR_range_ok (f := fillStep comp clues k) (n := D) (s := List.replicate D 0)
    (fun i s => s.length = D) (by simp)
    (by
      rintro i s hi hs
      refine ⟨s.set i ((comp clues[i]).getD k 0), ?_, by simpa using hs⟩
      unfold fillStep
      rw [idx_ok (by omega), res_ok_bind, idx_getD 0 (hk _ (List.getElem_mem _)), res_ok_bind, if_pos (by omega)])
  have : List.range clues.length = List.range D ++ (D :: (List.range (clues.length - D - 1)).map (D + 1 + ·)) := by
    rw [show clues.length = D + (clues.length - D - 1 + 1) by omega, List.range_add, show D + (clues.length - D - 1 + 1) - D - 1 = clues.length - D - 1 by omega, List.range_succ_eq_map]
    simp only [List.map_cons, List.map_map, Nat.add_zero]
    congr 3
    funext x
    simp only [Function.comp]; omega
  rw [this, foldR_append, h1, res_ok_bind, foldR_cons]
  unfold fillStep
  rw [idx_ok hD, res_ok_bind, idx_getD 0 (hk _ (List.getElem_mem _)), res_ok_bind, if_neg (by omega)]
  rfl

end OnionPIR.Omr
