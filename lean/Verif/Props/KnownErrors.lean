import Verif.Spec.KnownErrors
import Verif.Props.RqExtra
import Verif.Props.Reuse
import Verif.Proofs.Agree
import Mathlib.Data.Fintype.BigOperators
import Mathlib.Algebra.Order.Ring.Pow
/-
C135: which masks are invertible and how many there are, and that the error of one encryption with such a mask gives the key away.
-/
namespace OnionPIR
open Rg Poly Spec

variable {N t : Nat} {l : List Nat} {variance : Nat} {P : BfvParameters} {c : RqContext}

namespace KnownErrors

theorem values_ne {K : Nat} (h : c.WF K) (f : Rg (2 ^ K)) :
    (∀ row ∈ (enc c .ntt f).coefficients, ∀ x ∈ row, x ≠ 0) ↔ ∀ op ∈ c.nttOps, ∀ j, j < 2 ^ K → ev (ptOf K op j) f ≠ 0 := by
  simp only [enc, encRows]
  constructor
  · intro hf op hop j hj h0
    refine hf (rowN f op) (List.mem_map_of_mem hop) _ (List.mem_map_of_mem (List.mem_range.mpr hj)) ?_
    rw [h0, ZMod.val_zero]
  · intro hf row hrow x hx h0
    obtain ⟨op, hop, rfl⟩ := List.mem_map.mp hrow
    obtain ⟨j, hj, rfl⟩ := List.mem_map.mp hx
    exact hf op hop j (List.mem_range.mp hj) ((ZMod.val_eq_zero _).mp h0)

theorem inverse_enc {K : Nat} (h : c.WF K) (pr : Profile) {f : Rg (2 ^ K)} (hf : ∀ row ∈ (enc c .ntt f).coefficients, ∀ x ∈ row, x ≠ 0) :
    ∃ g, (enc c .ntt f).inverse pr = .ok (enc c .ntt g) ∧ Cong c.Q (f * g) 1 := by
  have hN : 0 < 2 ^ K := by positivity
  rw [values_ne h] at hf
  obtain ⟨g, hg⟩ := RqP.exists_powers h f
  refine ⟨g, RqP.inverse_of_powers h pr hg (Or.inr hf), (RqP.cong_iff_values h _ _).mpr fun op hop j hj => ?_⟩
  obtain ⟨_, _, ho⟩ := h.op_wf hop
  have := Fact.mk ho.prime
  rw [ev_mul hN _ (ptOf_pow ho j), ev_one hN _ (ptOf_pow ho j), hg op hop j hj, ← pow_succ',
    show op.p.p - 2 + 1 = op.p.p - 1 by have := ho.prime.two_le; omega, ZMod.pow_card_sub_one_eq_one (hf op hop j hj)]

theorem random_rows (tape : Nat → Nat → Nat) :
    (∀ row ∈ (Poly.random c tape .ntt).coefficients, ∀ x ∈ row, x ≠ 0) ↔ ∀ i, i < c.moduli.length → ∀ j, j < c.degree → tape i j ≠ 0 := by
  simp [Poly.random]

theorem moduli_len {K : Nat} (h : c.WF K) : c.moduli.length = c.moduli64.length := by
  rw [h.core.m64, ← h.core.rns.ps, h.core.mods, List.length_map]

theorem builds {α : Type} {f : Profile → Res α} {v : α} (hag : Agree (f .debug) (f .release)) (hd : f .debug = .ok v) (pr : Profile) : f pr = .ok v := by
  cases pr
  · exact hd
  · rcases hag with e | e | e
    · rw [← e, hd]
    · rw [e] at hd; cases hd
    · rw [e] at hd; cases hd

theorem prod_le (N : Nat) (l : List Nat) : (l.map fun q => (q - 1) ^ N).prod ≤ (l.map fun q => q ^ N).prod := by
  induction l with
  | nil => simp
  | cons q l ih =>
    simp only [List.map_cons, List.prod_cons]
    exact Nat.mul_le_mul (Nat.pow_le_pow_left (Nat.sub_le _ _) _) ih

end KnownErrors

/-- **C135, which polynomials are invertible.** A canonically stored polynomial in NTT form without a zero word has an inverse, which `inverse` returns
in both builds; with a zero word the debug build panics and no polynomial is an inverse. -/
theorem c135_inverse (hc : IsContext N l c) {a : Poly} (ha : a.context = c) (har : a.representation = .ntt) (hv : ValidRows c a.coefficients) :
    ((∀ row ∈ a.coefficients, ∀ x ∈ row, x ≠ 0) → ∀ pr, ∃ b one, a.inverse pr = .ok b ∧ a.mul pr b = .ok one ∧
      Denotes c .ntt (fun j => if j = 0 then 1 else 0) one) ∧
    ((∃ row ∈ a.coefficients, 0 ∈ row) → (∃ e, a.inverse .debug = .error e) ∧
      ¬ ∃ pr, ∃ b one, b.context = c ∧ b.representation = .ntt ∧ ValidRows c b.coefficients ∧ a.mul pr b = .ok one ∧
        Denotes c .ntt (fun j => if j = 0 then 1 else 0) one) := by
  obtain ⟨K, rfl, h, hQ⟩ := RqP.context_Q hc
  have hN : 0 < 2 ^ K := by positivity
  have hone : ofCoeffs (2 ^ K) (fun j => if j = 0 then 1 else 0) = 1 := by
    apply ext_cf hN
    intro j hj
    rw [cf_ofCoeffs hN _ hj]
    have := cf_int hN 1 j
    rw [Int.cast_one] at this
    exact this.symm
  subst ha
  obtain ⟨f, hf, -⟩ := exists_enc h (by rw [har]; simp) hv
  rw [har] at hf
  generalize hcc : a.context = c at *
  subst hf
  constructor
  · intro h0 pr
    obtain ⟨g, g1, g2⟩ := KnownErrors.inverse_enc h pr h0
    refine ⟨_, _, g1, Poly.mul_enc h pr f g, ?_⟩
    rw [RqP.denotes_iff h (by simp), hone]
    exact enc_congr h g2
  · rintro ⟨row, hrow, hzero⟩
    have hn : ¬ ∃ g, Cong c.Q (f * g) 1 := by
      rintro ⟨g, hg⟩
      rw [RqP.cong_iff_values h] at hg
      refine (KnownErrors.values_ne h f).mpr ?_ row hrow 0 hzero rfl
      intro op hop j hj h0
      obtain ⟨_, _, ho⟩ := h.op_wf hop
      have := Fact.mk ho.prime
      have h1 := hg op hop j hj
      rw [ev_mul hN _ (ptOf_pow ho j), ev_one hN _ (ptOf_pow ho j), h0, zero_mul] at h1
      exact zero_ne_one h1
    refine ⟨c58_not_invertible hc (by rwa [← hQ]) (RqP.denotes_enc h (by simp) f fun _ _ => rfl), ?_⟩
    rintro ⟨pr, b, one, hb, hbr, hbv, hm, ho⟩
    obtain ⟨g, hg, -⟩ := exists_enc (p := b) (by rw [hb]; exact h) (by rw [hbr]; simp) (by rw [Poly.Valid, hb]; exact hbv)
    rw [hbr, hb] at hg
    rw [hg, Poly.mul_enc h] at hm
    rw [RqP.denotes_iff h (by simp), hone, ← Except.ok.inj hm] at ho
    exact hn ⟨g, (enc_eq_iff h _ _).mp ho⟩

noncomputable instance : Fintype (MaskWords N l) := inferInstanceAs (Fintype ((i : Fin l.length) → Fin N → Fin (l.get i)))

/-- **C135, how many masks are invertible**: of the `∏ q^N` masks, exactly `∏ (q-1)^N`. -/
theorem c135_count (hc : IsContext N l c) :
    Nat.card {w : MaskWords N l // ∃ p, (Poly.random c w.tape .ntt).inverse .debug = .ok p} = (l.map fun q => (q - 1) ^ N).prod ∧
      Nat.card (MaskWords N l) = (l.map fun q => q ^ N).prod := by
  obtain ⟨K, hK, h, hm⟩ := RqP.ctx hc
  have hdeg : c.degree = N := by rw [h.core.deg, hK]
  have hlen : c.moduli.length = l.length := by rw [KnownErrors.moduli_len h, hm]
  have key : ∀ w : MaskWords N l, (∃ p, (Poly.random c w.tape .ntt).inverse .debug = .ok p) ↔ ∀ i j, (w i j).val ≠ 0 := by
    intro w
    have ht : TapeOk c w.tape := by
      intro i j hi
      have hi' : i < l.length := by rw [← hm]; exact hi
      have hb := (h.bound (q := l[i]) (by rw [hm]; exact List.getElem_mem hi')).1
      rw [hm, List.getD_eq_getElem _ _ hi']
      unfold MaskWords.tape
      split_ifs with hij
      · exact (w ⟨i, hij.1⟩ ⟨j, hij.2⟩).isLt
      · omega
    obtain ⟨f, hf⟩ := random_enc h ht
    have hval := enc_valid h .ntt f
    have hiff : (∀ row ∈ (Poly.random c w.tape .ntt).coefficients, ∀ x ∈ row, x ≠ 0) ↔ ∀ i j, (w i j).val ≠ 0 := by
      rw [KnownErrors.random_rows, hdeg, hlen]
      constructor
      · intro h1 i j
        have := h1 i i.isLt j j.isLt
        unfold MaskWords.tape at this
        rwa [dif_pos ⟨i.isLt, j.isLt⟩] at this
      · intro h1 i hi j hj
        unfold MaskWords.tape
        rw [dif_pos ⟨hi, hj⟩]
        exact h1 ⟨i, hi⟩ ⟨j, hj⟩
    rw [← hiff]
    obtain ⟨c1, c2⟩ := c135_inverse hc (a := Poly.random c w.tape .ntt) rfl rfl (by rw [hf]; exact hval)
    constructor
    · rintro ⟨p, hp⟩
      by_contra hcon
      push Not at hcon
      obtain ⟨row, hr, x, hx, rfl⟩ := hcon
      obtain ⟨e, he⟩ := (c2 ⟨row, hr, hx⟩).1
      rw [he] at hp
      cases hp
    · intro h0
      obtain ⟨b, -, hb, -⟩ := c1 h0 .debug
      exact ⟨b, hb⟩
  have hprod : ∀ g : Nat → Nat, ∏ i : Fin l.length, g (l.get i) = (l.map g).prod := by
    intro g
    rw [← List.prod_ofFn]
    congr 1
    apply List.ext_getElem <;> simp
  constructor
  · have e : {w : MaskWords N l // ∃ p, (Poly.random c w.tape .ntt).inverse .debug = .ok p} ≃
        ((i : Fin l.length) → Fin N → {x : Fin (l.get i) // x.val ≠ 0}) :=
      { toFun := fun w i j => ⟨w.1 i j, (key w.1).mp w.2 i j⟩
        invFun := fun w => ⟨fun i j => (w i j).1, (key _).mpr fun i j => (w i j).2⟩
        left_inv := fun _ => rfl
        right_inv := fun _ => rfl }
    have hcard : ∀ q : Nat, Fintype.card {x : Fin q // x.val ≠ 0} = q - 1 := by
      intro q
      rcases q with _ | q
      · simp
      · have e : {x : Fin (q + 1) // x.val ≠ 0} ≃ {x : Fin (q + 1) // ¬ x = 0} :=
          Equiv.subtypeEquivRight fun x => by rw [Fin.ext_iff]; rfl
        rw [Fintype.card_congr e, Fintype.card_subtype_compl, Fintype.card_fin, Fintype.card_subtype_eq]
    rw [Nat.card_congr e, Nat.card_eq_fintype_card, Fintype.card_pi, ← hprod]
    refine Finset.prod_congr rfl fun i _ => ?_
    rw [Fintype.card_pi, Finset.prod_const, Finset.card_univ, Fintype.card_fin, hcard]
  · rw [Nat.card_eq_fintype_card]
    show Fintype.card ((i : Fin l.length) → Fin N → Fin (l.get i)) = _
    rw [Fintype.card_pi, ← hprod]
    refine Finset.prod_congr rfl fun i _ => ?_
    rw [Fintype.card_pi, Finset.prod_const, Finset.card_univ, Fintype.card_fin, Fintype.card_fin]

/-- **C135, almost all masks are invertible**: the fraction of those that are not is at most `N ∑ 1/q`. -/
theorem c135_most (hc : IsContext N l c) :
    (Nat.card (MaskWords N l) : ℚ) * (1 - N * (l.map fun q : Nat => (1 : ℚ) / (q : ℚ)).sum) ≤
      Nat.card {w : MaskWords N l // ∃ p, (Poly.random c w.tape .ntt).inverse .debug = .ok p} := by
  obtain ⟨e1, e2⟩ := c135_count hc
  obtain ⟨K, -, h, hm⟩ := RqP.ctx hc
  rw [e1, e2]
  have hq : ∀ q ∈ l, 2 ≤ q := fun q hq => (h.bound (by rw [hm]; exact hq)).1
  clear e1 e2 hc hm h
  induction l with
  | nil => simp
  | cons q l ih =>
    have hq2 : (2 : ℚ) ≤ q := by exact_mod_cast hq q (by simp)
    have ih := ih fun q' h' => hq q' (by simp [h'])
    simp only [List.map_cons, List.prod_cons, List.sum_cons]
    have hA : (0 : ℚ) ≤ ((l.map fun q => (q - 1) ^ N).prod : Nat) := Nat.cast_nonneg _
    have hB : (0 : ℚ) ≤ ((l.map fun q => q ^ N).prod : Nat) := Nat.cast_nonneg _
    have hAB : (((l.map fun q => (q - 1) ^ N).prod : Nat) : ℚ) ≤ ((l.map fun q => q ^ N).prod : Nat) := by
      exact_mod_cast KnownErrors.prod_le N l
    have hb : ((q : ℚ) ^ N) * (1 - N * (1 / q)) ≤ ((q : ℚ) - 1) ^ N := by
      have h1 : (1 : ℚ) / q ≤ 1 := by rw [div_le_one (by linarith)]; linarith
      have h2 := one_add_mul_le_pow (a := -((1 : ℚ) / q)) (by linarith) N
      have h3 : ((q : ℚ) - 1) ^ N = (q : ℚ) ^ N * (1 + -(1 / q)) ^ N := by
        rw [← mul_pow]; congr 1; field_simp; ring
      rw [h3]
      refine mul_le_mul_of_nonneg_left (le_trans (le_of_eq ?_) h2) (by positivity)
      ring
    have hcast : (((q - 1 : Nat) : ℚ)) = (q : ℚ) - 1 := by
      rw [Nat.cast_sub (by have := hq q (by simp); omega), Nat.cast_one]
    rw [Nat.cast_mul, Nat.cast_mul, Nat.cast_pow, Nat.cast_pow, hcast]
    generalize (((l.map fun q => (q - 1) ^ N).prod : Nat) : ℚ) = A at *
    generalize (((l.map fun q => q ^ N).prod : Nat) : ℚ) = B at *
    generalize (l.map fun q : Nat => (1 : ℚ) / (q : ℚ)).sum = s at *
    have hX : (0 : ℚ) ≤ (q : ℚ) ^ N := by positivity
    have hinv : (0 : ℚ) ≤ 1 / q := by positivity
    have hNq : (0 : ℚ) ≤ N * (1 / q) := by positivity
    -- `B X (1 - N/q - N s) = X (B (1 - N s)) - X B N/q ≤ X A - A X N/q`
    have s1 : (q : ℚ) ^ N * (B * (1 - N * s)) ≤ (q : ℚ) ^ N * A := mul_le_mul_of_nonneg_left ih hX
    have s2 : A * ((q : ℚ) ^ N * (1 - N * (1 / q))) ≤ A * ((q : ℚ) - 1) ^ N := mul_le_mul_of_nonneg_left hb hA
    have s3 : (q : ℚ) ^ N * (N * (1 / q)) * A ≤ (q : ℚ) ^ N * (N * (1 / q)) * B := mul_le_mul_of_nonneg_left hAB (mul_nonneg hX hNq)
    nlinarith [s1, s2, s3]

/-- **C135, known errors give the key away.** Whoever sees one ciphertext whose mask has no zero word and knows its message and the words from which its
error was sampled reads the secret key. -/
theorem c135_known_error (h : IsParams N t l variance P) {sk : SecretKey} (hk : IsKey P sk) (pr pr' : Profile) (hv1 : 1 ≤ variance) (hv2 : variance ≤ 16)
    {p : Plaintext} (hp : p.params = P ∧ p.level = 0 ∧ p.values.length ≤ N ∧ ∀ x ∈ p.values, x < 2 ^ 64)
    {aTape : Nat → Nat → Nat} (ha : TapeAt l 0 aTape) (hne : ∀ i, i < l.length → ∀ j, j < N → aTape i j ≠ 0)
    {rng : Nat → Nat} (hr : ∀ i, rng i < 2 ^ 64) {S : ℤ} (hS : Bdd S (keyRing N sk)) (hq : 2 * S < (levelModuli l 0).getD 0 1) :
    ∃ ct, sk.encrypt pr p aTape rng = .ok ct ∧ divideOut pr' P p rng ct = .ok ((List.range N).map fun k => sk.coeffs.getD k 0) := by
  obtain ⟨hpp, hp0, hp1, hp2⟩ := hp
  obtain ⟨K, ext, rfl, hw, rfl, rfl, rfl⟩ := BfvP.params h
  have hN : 0 < 2 ^ K := by positivity
  have hl0 : 0 < P.ciphertextModuli.length := List.length_pos_iff.mpr hw.ne
  obtain ⟨L, hL⟩ := hw.levels 0 hl0
  have hsk := BfvP.key hw hk
  have hPk := hk.1
  subst hPk
  have hc := hL.wf.ctx
  have hmod := BfvP.levelModuli_eq hL
  have hlen := BfvP.len_level hL
  obtain ⟨M, m1, -⟩ := Plaintext.toPoly_enc (p := p) (ext := ext) (by rw [hpp]; exact hw) (L := L) (by rw [hpp, hp0]; exact hL) .debug hp1 hp2
  have m2 := KnownErrors.builds (f := fun pr => p.toPoly pr) (Plaintext.toPoly_agree p) m1
  obtain ⟨e, e1, -⟩ := randomSmall_enc hc .debug hv1 hv2 hr
  have e2 := KnownErrors.builds (f := fun pr => Poly.randomSmall pr L.qCtx .ntt sk.params.variance rng) (Poly.randomSmall_agree _ _ _ _) e1
  obtain ⟨a, a1⟩ := random_enc hc (BfvP.tape hL ha)
  have hnz : ∀ row ∈ (enc L.qCtx .ntt a).coefficients, ∀ x ∈ row, x ≠ 0 := by
    rw [← a1, KnownErrors.random_rows, KnownErrors.moduli_len hc, hc.core.deg]
    intro i hi j hj
    refine hne i ?_ j hj
    rw [hmod] at hi
    refine lt_of_lt_of_le hi ?_
    unfold levelModuli
    exact List.length_take_le _ _
  obtain ⟨g, g1, w, hg⟩ := KnownErrors.inverse_enc hc pr' hnz
  refine ⟨_, by
    unfold SecretKey.encrypt SecretKey.encryptPoly
    simp only [m2 pr, res_ok_bind, show (enc L.qCtx .ntt M).context = L.qCtx from rfl, SecretKey.polyNtt_enc hsk pr hc, a1, mul_enc hc, e2 pr, sub_enc hc, add_enc hc]
    rfl, ?_⟩
  have hs : enc L.qCtx .powerBasis ((e + M - (e - a * sk.ring K + M)) * g) = enc L.qCtx .powerBasis (sk.ring K) :=
    enc_congr hc ⟨sk.ring K * w, by linear_combination sk.ring K * hg⟩
  unfold divideOut
  simp only [m2 pr', res_ok_bind, show (enc L.qCtx .ntt M).context = L.qCtx from rfl, e2 pr', add_enc hc,
    show ∀ x y : Poly, idx [x, y] 0 = .ok x from fun _ _ => rfl, show ∀ x y : Poly, idx [x, y] 1 = .ok y from fun _ _ => rfl, sub_enc hc, g1, mul_enc hc,
    toPower_enc hc, hs]
  have hpos : 0 < L.qCtx.moduli64.length := List.length_pos_iff.mpr hc.core.ne
  have hrows : (enc L.qCtx .powerBasis (sk.ring K)).coefficients = L.qCtx.moduli64.map (rowP (sk.ring K)) := by
    rw [hc.core.m64_ops, List.map_map]; rfl
  rw [hrows, idx_ok (by simpa using hpos), res_ok_bind, show (enc L.qCtx .powerBasis (sk.ring K)).context = L.qCtx from rfl, idx_ok hpos, res_ok_bind,
    List.getElem_map]
  congr 1
  rw [← hmod, List.getD_eq_getElem _ _ hpos] at hq
  unfold rowP
  rw [List.map_map]
  refine List.map_congr_left fun n hn => ?_
  have hn := List.mem_range.mp hn
  have hcf : cf (sk.ring K) n = sk.coeffs.getD n 0 := cf_ofCoeffs hN _ hn
  have hb := hS n hn
  unfold keyRing at hb
  rw [cf_ofCoeffs hN _ hn] at hb
  simp only [Function.comp, hcf]
  exact Reuse.nearZero_eq (by omega) (by simp)

/-- **C135, known selectors give the message of a clue away**: whoever sees a clue and knows its selector reads its message with the public key only. -/
theorem c135_clue {params : PvwParams} {q : Modulus} (hn : Modulus.new params.q = .ok q) (pr pr' : Profile) {pk : PvwPk} (hpk : IsPvwPk params pk) {e : Nat → Nat}
    (he : ∀ m, e m < 2) {msg : List Nat} (hl : msg.length = params.ell) (hb : ∀ x ∈ msg, x < 2) :
    ∃ x, Pvw.encrypt pr pk params msg e = .ok x ∧ compareClue pr' pk params e x = .ok msg := by
  obtain ⟨x, y, h1, h2, -, h3⟩ := c133_clue hn .debug hpk he hl (List.length_replicate (n := params.ell) (a := 0)) hb
    (fun x hx => by rw [List.eq_of_mem_replicate hx]; norm_num)
  refine ⟨x, KnownErrors.builds (f := fun pr => Pvw.encrypt pr pk params msg e) (Pvw.encrypt_agree _ _ _ _) h1 pr, ?_⟩
  unfold compareClue
  rw [KnownErrors.builds (f := fun pr => Pvw.encrypt pr pk params (List.replicate params.ell 0) e) (Pvw.encrypt_agree _ _ _ _) h2 pr', res_ok_bind]
  congr 1
  refine List.ext_getElem (by simp [hl]) fun k hk hk' => ?_
  have hk2 : k < params.ell := by omega
  have h4 := h3 k hk2
  have h5 := hb _ (List.getElem_mem hk')
  rw [List.getD_eq_getElem msg _ hk', List.getD_eq_getElem (List.replicate params.ell 0) _ (by simpa using hk2), List.getElem_replicate] at h4
  rw [List.getElem_map, List.getElem_range]
  split_ifs with h6
  · exact (h4.mp h6).symm
  · have : msg[k] ≠ 0 := fun h7 => h6 (h4.mpr h7)
    omega

/-- With the mask words `j % 3 + 1` the key is read off one encryption of `[3, 4]`. -/
example : ∃ P sk ct, IsParams 8 17 Ex.mods 10 P ∧ IsKey P sk ∧
    sk.encrypt .debug ⟨P, 0, .poly, [3, 4]⟩ (fun _ j => j % 3 + 1) (fun i => i % 1000) = .ok ct ∧
    divideOut .release P ⟨P, 0, .poly, [3, 4]⟩ (fun i => i % 1000) ct = .ok ((List.range 8).map fun k => sk.coeffs.getD k 0) := by
  obtain ⟨P, sk, h, hk, hb⟩ := Ex.setup_key
  obtain ⟨ct, e1, e2⟩ := c135_known_error h hk .debug .release (by norm_num) (by norm_num)
    (p := ⟨P, 0, .poly, [3, 4]⟩) ⟨rfl, rfl, by norm_num, show ∀ x ∈ [3, 4], x < 2 ^ 64 by decide⟩ (aTape := fun _ j => j % 3 + 1)
    (fun k j hk => by
      have : 3 < (levelModuli Ex.mods 0).getD k 1 := by
        rw [List.getD_eq_getElem _ _ hk]
        exact (show ∀ q ∈ levelModuli Ex.mods 0, 3 < q by decide) _ (List.getElem_mem hk)
      show j % 3 + 1 < _
      omega) (fun _ _ j _ => Nat.succ_ne_zero (j % 3)) Ex.wordTape hb (by decide)
  exact ⟨P, sk, ct, h, hk, e1, e2⟩

/-- An actual public key and a clue with the selector `0, 1, 0`. -/
example (pr : Profile) : ∃ x, Pvw.encrypt pr [⟨[1, 2], [3, 4]⟩, ⟨[0, 16], [5, 6]⟩, ⟨[7, 8], [9, 10]⟩] ⟨2, 2, 3, 17, 1⟩ [1, 0] (fun i => i % 2) = .ok x ∧
    compareClue pr [⟨[1, 2], [3, 4]⟩, ⟨[0, 16], [5, 6]⟩, ⟨[7, 8], [9, 10]⟩] ⟨2, 2, 3, 17, 1⟩ (fun i => i % 2) x = .ok [1, 0] := by
  obtain ⟨q, hq, -⟩ := Modulus.new_ok (p := (⟨2, 2, 3, 17, 1⟩ : PvwParams).q) (by decide) (by decide)
  refine c135_clue hq pr pr (fun m hm => ?_) (e := fun i => i % 2) (fun _ => by omega) rfl (by decide)
  have : m < 3 := hm
  interval_cases m <;> exact ⟨_, rfl, ⟨rfl, by decide⟩, rfl, by decide⟩

/-- Of the `17^8 · 97^8` masks modulo `17 · 97`, `16^8 · 96^8` are invertible. -/
example : ∃ c, IsContext 8 [17, 97] c ∧
    Nat.card {w : MaskWords 8 [17, 97] // ∃ p, (Poly.random c w.tape .ntt).inverse .debug = .ok p} = 16 ^ 8 * 96 ^ 8 := by
  obtain ⟨c, hc⟩ := exists_context
  exact ⟨c, hc, (c135_count hc).1.trans (by norm_num)⟩

end OnionPIR
