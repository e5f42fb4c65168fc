import Verif.Proofs.RepairLeak
import Verif.Props.Watch
/-
C122 (src/rns.rs:384-393, 413-416): with masks in place of the two branches on the sign, decryption returns the same and its trace shows nothing.
-/
namespace OnionPIR
open Lk Rg Poly Spec

variable {N t variance : Nat} {l : List Nat} {P : BfvParameters}

/-- C122: whatever the inputs, where `decrypt` returns the copy with masks returns the same. -/
theorem c122_value (pr : Profile) (sk : SecretKey) (ct : BfvCipherText) {pt : Plaintext} (h : sk.decrypt pr ct = .ok pt) :
    (Repair.decryptL pr sk ct).val = .ok pt := Repair.decryptL_le pr sk ct pt h

/-- C122: so does the scaling by itself, for any scaler and any residues. -/
theorem c122_scale (pr : Profile) (s : RnsScaler) (r : List Nat) (n i : Nat) {v : List Nat} (h : s.scale pr r n i = .ok v) :
    (Repair.scaleL pr s r n i).val = .ok v := Repair.scaleL_le pr s r n i v h

/-- C122: the trace of the copy is the same for all keys and ciphertexts of a level and a length, and the copy decrypts them all. -/
theorem c122_constant (h : IsParams N t l variance P) {sk sk' : SecretKey} (hk : IsKey P sk) (hk' : IsKey P sk') (hl : sk.coeffs.length = sk'.coeffs.length)
    {i : Nat} {fs gs : List (Rg N)} (hne : fs ≠ []) (hn : fs.length = gs.length) {ct ct' : BfvCipherText} (hct : IsCt P i fs ct) (hct' : IsCt P i gs ct') :
    ∃ pt pt' tr, sk.decrypt .release ct = .ok pt ∧ sk'.decrypt .release ct' = .ok pt' ∧
      Repair.decryptL .release sk ct = ⟨.ok pt, tr⟩ ∧ Repair.decryptL .release sk' ct' = ⟨.ok pt', tr⟩ := by
  have hne' : gs ≠ [] := by rintro rfl; exact hne (List.length_eq_zero_iff.mp hn)
  obtain ⟨pt, h1, -⟩ := c30_decrypt_total h hk .release hne hct
  obtain ⟨pt', h2, -⟩ := c30_decrypt_total h hk' .release hne' hct'
  have v1 := c122_value _ _ _ h1
  have v2 := c122_value _ _ _ h2
  have := (Repair.decryptL_sim (hk.1.trans hk'.1.symm) hl (hct.2.1.trans hct'.2.1.symm) (like_cts h hn hct.2.2 hct'.2.2) pt pt' v1 v2).1
  exact ⟨pt, pt', _, h1, h2, by rw [← v1], by rw [← v2, this]⟩

/-- C122: the scaling by itself has the same trace for all residues that it accepts, without any condition on the scaler. -/
theorem c122_scale_constant (s : RnsScaler) {r r' : List Nat} (h : r.length = r'.length) (n i : Nat) {v v' : List Nat} (hv : s.scale .release r n i = .ok v)
    (hv' : s.scale .release r' n i = .ok v') : (Repair.scaleL .release s r n i).trace = (Repair.scaleL .release s r' n i).trace :=
  (Repair.scaleL_sim s h n i v v' (c122_scale _ _ _ _ _ hv) (c122_scale _ _ _ _ _ hv')).1

/-- With the example parameters there are two keys or ciphertexts that the trace of `decrypt` tells apart; the trace of the copy does not. -/
example : ∃ P, IsParams 8 17 Ex.mods 10 P ∧ ∃ sk sk' ct ct' pt pt', (sk.decryptL .release ct).val = .ok pt ∧ (sk'.decryptL .release ct').val = .ok pt' ∧
    (sk.decryptL .release ct).trace ≠ (sk'.decryptL .release ct').trace ∧ (Repair.decryptL .release sk ct).val = .ok pt ∧
    (Repair.decryptL .release sk' ct').val = .ok pt' ∧ (Repair.decryptL .release sk ct).trace = (Repair.decryptL .release sk' ct').trace := by
  obtain ⟨P, h⟩ := Ex.exists_params
  refine ⟨P, h, ?_⟩
  have e : levelModuli Ex.mods 1 = [1048609, 1048721] := rfl
  have hneg : ¬ ∀ q ∈ levelModuli Ex.mods 1, 0 ≤ leakWeight 17 (levelModuli Ex.mods 1) q := by
    intro hall
    rw [e] at hall
    have hm := fun q hq => Watch.moduli (i := 1) (q := q) h hq
    rw [e] at hm
    obtain ⟨p1, p2, p3, p4⟩ := hm 1048609 (by simp)
    obtain ⟨q1, q2, q3, q4⟩ := hm 1048721 (by simp)
    obtain ⟨w0, w1⟩ := c120_two p1 q1 p2 q2 (by norm_num) (by norm_num) p3 q3 p4 q4
    have a := hall 1048609 (by simp)
    have b := hall 1048721 (by simp)
    have c := (w1 1048609).2 (by norm_num)
    rw [decide_eq_true (lt_of_le_of_ne a w0.symm)] at c
    simp only [leakBit, List.map_cons, List.map_nil, List.sum_cons, List.sum_nil, add_zero, decide_eq_true_eq] at c
    norm_num at c
    linarith
  have := mt (c120_constant h (i := 1) (by decide)).mp hneg
  push Not at this
  obtain ⟨sk, sk', fs, gs, ct, ct', hk, hk', hl, hne, hn, hct, hct', hd⟩ := this
  obtain ⟨pt, pt', tr, h1, h2, h3, h4⟩ := c122_constant h hk hk' hl hne hn hct hct'
  exact ⟨sk, sk', ct, ct', pt, pt', by rw [SecretKey.decryptL_val, h1], by rw [SecretKey.decryptL_val, h2], hd, by rw [h3], by rw [h4], by rw [h3, h4]⟩

end OnionPIR
