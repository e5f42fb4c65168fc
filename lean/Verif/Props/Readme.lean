import Verif.Proofs.Readme
import Verif.Props.RepairPir
/- C110: the procedures that Readme.md describes, and what the code does. -/
namespace OnionPIR
open Rg Poly Spec Evaluation

variable {N t : Nat} {l : List Nat} {variance : Nat} {P : BfvParameters}

theorem Readme.replicate_coordinates {dim : Nat} (hd : 0 < dim) : ∀ k x, x < dim ^ k →
    (coordinates (List.replicate k dim) x).length = k ∧ (∀ i ∈ coordinates (List.replicate k dim) x, i < dim) ∧
      address dim (coordinates (List.replicate k dim) x) = x
  | 0, x, hx => ⟨rfl, by simp [coordinates], by rw [pow_zero, Nat.lt_one_iff] at hx; rw [hx]; rfl⟩
  | k + 1, x, hx => by
    obtain ⟨h1, h2, h3⟩ := replicate_coordinates hd k (x / dim) (Nat.div_lt_of_lt_mul (by rwa [pow_succ'] at hx))
    rw [List.replicate_succ, coordinates]
    refine ⟨by rw [List.length_cons, h1], ?_, ?_⟩
    · intro i hi
      rcases List.mem_cons.mp hi with rfl | hi
      · exact Nat.mod_lt _ hd
      · exact h2 i hi
    · rw [address, h3]
      exact Nat.mod_add_div x dim

/-- C110: dividing as Readme.md says gives, for every row, coordinates within the dimensions whose address is that row. -/
theorem c110_coordinates {fd dim k x : Nat} (hd : 0 < dim) (hx : x < fd * dim ^ k) :
    ∃ i0 is, coordinates (fd :: List.replicate k dim) x = i0 :: is ∧ i0 < fd ∧ is.length = k ∧ (∀ i ∈ is, i < dim) ∧
      i0 + fd * address dim is = x := by
  have hf : 0 < fd := Nat.pos_of_ne_zero fun h => by rw [h, Nat.zero_mul] at hx; omega
  obtain ⟨h1, h2, h3⟩ := Readme.replicate_coordinates hd k (x / fd) (Nat.div_lt_of_lt_mul hx)
  exact ⟨_, _, rfl, Nat.mod_lt _ hf, h1, h2, by rw [h3]; exact Nat.mod_add_div x fd⟩

example : coordinates [4, 3, 3] 29 = [1, 1, 2] ∧ 1 + 4 * address 3 [1, 2] = 29 := by decide

theorem Readme.oneHot_eq {len i : Nat} (hi : i < len) : oneHot len i = (List.range len).map fun k => if k = i then 1 else 0 := by
  unfold oneHot
  refine List.ext_getElem (by simp; omega) fun k h1 h2 => ?_
  simp only [List.length_map, List.length_range] at h2
  rw [List.getElem_map, List.getElem_range]
  rcases Nat.lt_trichotomy k i with h | rfl | h
  · rw [List.getElem_append_left (by simpa using h), List.getElem_replicate, if_neg (by omega)]
  · rw [List.getElem_append_right (by simp), if_pos rfl]
    simp
  · rw [List.getElem_append_right (by simp; omega), if_neg (by omega), List.getElem_cons]
    rw [dif_neg (by simp; omega), List.getElem_replicate]

/-- C110: on coordinates within the dimensions of a database of `fd·dim^k` rows, `encode` returns exactly the flattened zeros and ones
that Readme.md describes. -/
theorem c110_vector (pr : Profile) {fd dim i0 : Nat} {is : List Nat} (h0 : i0 < fd) (his : ∀ i ∈ is, i < dim) (hp : dim ^ is.length < 2 ^ 64)
    (hl : is.length < 2 ^ 32) : (Client.mk fd dim).encode pr (i0 :: is) (fd * dim ^ is.length) =
      .ok (queryVector (fd :: List.replicate is.length dim) (i0 :: is)) := by
  obtain ⟨v, v1, v2, v3, v4⟩ := c42_encode pr (Client.mk fd dim) (i0 := i0) (rest := is) h0 his hp hl rfl
  rw [v1]
  congr 1
  dsimp only at v2 v3 v4
  have e : queryVector (fd :: List.replicate is.length dim) (i0 :: is) =
      oneHot fd i0 ++ (is.map fun q => (List.range dim).map fun j => if j = q then 1 else 0).flatten := by
    unfold queryVector
    rw [List.zipWith_cons_cons, List.flatten_cons]
    congr 2
    clear v4 v2 hp hl v1
    induction is with
    | nil => rfl
    | cons a as ih =>
      rw [List.length_cons, List.replicate_succ, List.zipWith_cons_cons, List.map_cons, ih fun i hi => his i (by simp [hi]),
        Readme.oneHot_eq (his a (by simp))]
  rw [e, Readme.oneHot_eq h0]
  have hlen : ((is.map fun q => (List.range dim).map fun j => if j = q then 1 else 0).flatten).length = dim * is.length :=
    Client.flatten_length (f := fun q j => if j = q then 1 else 0) ..
  refine List.ext_getElem? fun k => ?_
  rcases Nat.lt_or_ge k fd with hk | hk
  · have := v3 k hk
    rw [Nat.zero_add] at this
    rw [this, List.getElem?_append_left (by simpa using hk)]
    simp [hk]
  rw [List.getElem?_append_right (by simpa using hk), List.length_map, List.length_range]
  rcases Nat.lt_or_ge k (fd + dim * is.length) with hk2 | hk2
  · have hd : 0 < dim := Nat.pos_of_ne_zero fun h => by rw [h, Nat.zero_mul] at hk2; omega
    have hq : (k - fd) / dim < is.length := Nat.div_lt_of_lt_mul (by omega)
    have hr : (k - fd) % dim < dim := Nat.mod_lt _ hd
    have hs : k - fd = (k - fd) / dim * dim + (k - fd) % dim := (Nat.div_add_mod' _ _).symm
    have := v4 _ hq _ hr
    rw [show fd + (k - fd) / dim * dim + (k - fd) % dim = k by omega] at this
    rw [this, hs, Client.flatten_get (f := fun q j => if j = q then 1 else 0) is hq hr]
    rw [← hs]
  · rw [List.getElem?_eq_none (by omega), List.getElem?_eq_none (by omega)]

example : (Client.mk 3 2).encode .debug [2, 0, 1] 12 = .ok [0, 0, 1, 1, 0, 0, 1] := by
  rw [show (12 : Nat) = 3 * 2 ^ [0, 1].length from rfl, c110_vector .debug (by norm_num) (by simp) (by simp) (by simp)]
  rfl

/-- C110, a disagreement: the Readme and src/client.rs expand the indexes `[8, 2, 3]` with the first 1 at position 7, but the second and third
at the positions 2 and 3, where counting starts with 0. The code counts from 0 throughout, and puts the first 1 at position 8. -/
theorem c110_doc_example (pr : Profile) {fd : Nat} (hf : 8 < fd) :
    (Client.mk fd 4).encode pr [8, 2, 3] (fd * 16) = .ok (oneHot fd 8 ++ [0, 0, 1, 0] ++ [0, 0, 0, 1]) ∧
      (Client.mk fd 4).encode pr [8, 2, 3] (fd * 16) ≠ .ok ([0, 0, 0, 0, 0, 0, 0, 1] ++ List.replicate (fd - 8) 0 ++ [0, 0, 1, 0] ++ [0, 0, 0, 1]) ∧
      (Client.mk fd 4).encode pr [7, 2, 3] (fd * 16) = .ok ([0, 0, 0, 0, 0, 0, 0, 1] ++ List.replicate (fd - 8) 0 ++ [0, 0, 1, 0] ++ [0, 0, 0, 1]) := by
  have h8 := c110_vector pr (fd := fd) (dim := 4) (i0 := 8) (is := [2, 3]) hf (by simp) (by simp) (by simp)
  have h7 := c110_vector pr (fd := fd) (dim := 4) (i0 := 7) (is := [2, 3]) (by omega) (by simp) (by simp) (by simp)
  have e8 : queryVector (fd :: List.replicate [2, 3].length 4) [8, 2, 3] = oneHot fd 8 ++ [0, 0, 1, 0] ++ [0, 0, 0, 1] := by
    rw [List.append_assoc]; rfl
  have e7 : queryVector (fd :: List.replicate [2, 3].length 4) [7, 2, 3] =
      [0, 0, 0, 0, 0, 0, 0, 1] ++ List.replicate (fd - 8) 0 ++ [0, 0, 1, 0] ++ [0, 0, 0, 1] := by
    rw [List.append_assoc _ [0, 0, 1, 0], show fd - 8 = fd - 7 - 1 by omega]; rfl
  rw [show fd * 16 = fd * 4 ^ [2, 3].length from rfl, h8, h7, e8, e7]
  refine ⟨rfl, fun h => ?_, rfl⟩
  have := congrArg (fun x => x[7]?) (Except.ok.inj h)
  simp [oneHot] at this

example : (Client.mk 9 4).encode .release [8, 2, 3] 144 = .ok [0, 0, 0, 0, 0, 0, 0, 0, 1, 0, 0, 1, 0, 0, 0, 0, 1] :=
  (c110_doc_example .release (by norm_num)).1

/-- C110: the whole protocol by the Readme, with the corrected lines of C80: choosing the coordinates of row `x` by repeated division, and
encoding them as zeros and ones, every query is answered by row `x`. -/
theorem c110_row (h : IsParams N t l variance P) (hv1 : 1 ≤ variance) (hv2 : variance ≤ 16)
    (hN2 : N ≤ 2 ^ 12) (ht : t ≤ 2 ^ 21) (hl : 4 ≤ l.length) (hq : ∀ q ∈ l, 2 ^ 61 ≤ q ∧ q < 2 ^ 62)
    -- profiles of client and server
    (pc ps : Profile)
    -- randomness of the keys
    {krng : Nat → Nat} (hkr : ∀ i, krng i < 2 ^ 64)
    {aTape : Nat → Nat → Nat → Nat → Nat} (ha : ∀ k j, TapeAt l 0 (aTape k j))
    {rng : Nat → Nat → Nat → Nat} (hr : ∀ k j i, rng k j i < 2 ^ 64) {a0 a1 : Nat → Nat → Nat → Nat} (ha0 : ∀ j, TapeAt l 0 (a0 j))
    (ha1 : ∀ j, TapeAt l 0 (a1 j)) {r0 r1 : Nat → Nat → Nat} (hr0 : ∀ j i, r0 j i < 2 ^ 64) (hr1 : ∀ j i, r1 j i < 2 ^ 64)
    -- database and row
    {fd dim k : Nat} (hd2 : 2 ≤ dim) {db : List Plaintext} (hdb : ∀ p ∈ db, p.values.length ≤ N) (hv : ∀ p ∈ db, ∀ x ∈ p.values, x < t)
    (hrows : db.length = fd * dim ^ k) (hfit : fd + dim * k ≤ N) (hmem : db.length < 2 ^ 64) {x : Nat} (hx : x < db.length) :
    ∃ sk ev srv, SecretKey.generate pc P krng = .ok sk ∧ Evaluation.build pc sk P aTape rng a0 a1 r0 r1 = .ok ev ∧
      Server.new ps fd dim db P = .ok srv ∧
      (Client.mk fd dim).encode pc (coordinates (fd :: List.replicate k dim) x) db.length =
        .ok (queryVector (fd :: List.replicate k dim) (coordinates (fd :: List.replicate k dim) x)) ∧
      (∃ q0 qs, IsQuery N P l sk fd (queryVector (fd :: List.replicate k dim) (coordinates (fd :: List.replicate k dim) x)) q0 qs) ∧
      ∀ q0 qs, IsQuery N P l sk fd (queryVector (fd :: List.replicate k dim) (coordinates (fd :: List.replicate k dim) x)) q0 qs →
        ∃ ct pt, Repair.decode ps srv (q0 :: qs) ev P = .ok [ct] ∧ sk.decrypt pc ct = .ok pt ∧
          pt.values = (List.range N).map fun k => db[x].values.getD k 0 := by
  obtain ⟨i0, is, hc, h0, rfl, his, hadd⟩ := c110_coordinates (fd := fd) (dim := dim) (k := k) (x := x) (by omega) (by omega)
  have hf : 0 < fd := by omega
  have hpow : dim ^ is.length < 2 ^ 64 := by
    have : dim ^ is.length ≤ fd * dim ^ is.length := Nat.le_mul_of_pos_left _ hf
    omega
  have h32 : is.length < 2 ^ 32 := by
    have : is.length < dim ^ is.length := Nat.lt_pow_self hd2
    have : dim * is.length ≤ 2 ^ 12 := by omega
    have : is.length ≤ dim * is.length := Nat.le_mul_of_pos_left _ (by omega)
    omega
  obtain ⟨sk, ev, srv, v, k1, k2, k3, k4, k5, k6⟩ := c80_protocol h hv1 hv2 hN2 ht hl hq pc ps hkr ha hr ha0 ha1 hr0 hr1 hd2 hdb hv h0 his hrows hfit
    hmem
  have hvec := c110_vector pc h0 his hpow h32
  rw [← hrows] at hvec
  obtain rfl := Except.ok.inj (k4.symm.trans hvec)
  rw [hc]
  refine ⟨sk, ev, srv, k1, k2, k3, k4, k5, fun q0 qs hq => ?_⟩
  obtain ⟨ct, pt, row, r1, r2, r3, r4⟩ := k6 q0 qs hq
  rw [hadd, List.getElem?_eq_getElem hx] at r1
  obtain rfl := Option.some.inj r1
  exact ⟨ct, pt, r2, r3, r4⟩

/-- Row 5 of eight rows. -/
example : ∃ P l sk ev srv, TestParams 64 1785857 l P ∧ SecretKey.generate .debug P (fun i => i % 1000) = .ok sk ∧
    Evaluation.build .debug sk P (fun _ _ _ _ => 0) (fun _ _ i => i % 1000) (fun _ _ _ => 0) (fun _ _ _ => 0) (fun _ i => i % 1000)
      (fun _ i => i % 1000) = .ok ev ∧
    Server.new .release 4 2 ((List.range 8).map fun i => (⟨P, 0, .poly, [i, 100]⟩ : Plaintext)) P = .ok srv ∧
    (Client.mk 4 2).encode .debug [1, 1] 8 = .ok [0, 1, 0, 0, 0, 1] ∧ (∃ q0 qs, IsQuery 64 P l sk 4 [0, 1, 0, 0, 0, 1] q0 qs) ∧
    ∀ q0 qs, IsQuery 64 P l sk 4 [0, 1, 0, 0, 0, 1] q0 qs → ∃ ct pt, Repair.decode .release srv (q0 :: qs) ev P = .ok [ct] ∧
      sk.decrypt .debug ct = .ok pt ∧ pt.values = 5 :: 100 :: List.replicate 62 0 := by
  obtain ⟨P, l, h, hl, hb⟩ := Ex.test_eval
  have ht := Ex.test_tapes h
  obtain ⟨sk, ev, srv, h1, h2, h3, h4, h5, h6⟩ := c110_row h.params (by norm_num) (by norm_num) (by norm_num) (by norm_num) (by omega) hb
    .debug .release Ex.wordTape ht.a ht.r ht.a0 ht.a1 ht.r0 ht.r1 (fd := 4) (dim := 2) (k := 1) (by norm_num)
    (db := (List.range 8).map fun i => (⟨P, 0, .poly, [i, 100]⟩ : Plaintext)) (fun p hp => by
      obtain ⟨i, -, rfl⟩ := List.mem_map.mp hp
      simp) (fun p hp x hx => by
      obtain ⟨i, hi, rfl⟩ := List.mem_map.mp hp
      have := List.mem_range.mp hi
      simp only [List.mem_cons, List.not_mem_nil, or_false] at hx
      rcases hx with rfl | rfl <;> omega) (by simp) (by norm_num) (by simp) (x := 5) (by simp)
  refine ⟨P, l, sk, ev, srv, h, h1, h2, h3, by rw [List.length_map, List.length_range] at h4; exact h4, h5, fun q0 qs hq => ?_⟩
  obtain ⟨ct, pt, r2, r3, r4⟩ := h6 q0 qs hq
  exact ⟨ct, pt, r2, r3, r4.trans (by simp only [List.getElem_map, List.getElem_range]; decide)⟩

/-- C110: `X ↦ X^(N/2^i + 1)` on a node of depth `i` changes the sign of every second of its terms; for `i = 0` of all odd powers. -/
theorem c110_sign (hK : ∃ K, N = 2 ^ K) {i : Nat} (hi : 2 ^ i < N) (j : Nat) (M : Rg N) {k : Nat} (hk : k < N) :
    cf (sg (N / 2 ^ i + 1) (stride N i j M)) k = (-1) ^ (k / 2 ^ i) * cf (stride N i j M) k := by
  obtain ⟨K, rfl⟩ := hK
  have hi' : i < K := (Nat.pow_lt_pow_iff_right (by norm_num)).mp hi
  rw [Nat.pow_div hi'.le (by norm_num)]
  exact cf_sg_half hi' _ (fun k hk hn => by rw [cf_stride (by positivity) _ _ _ hk, if_neg hn]) hk

example : cf (sg 9 (stride 8 0 0 (msgRing 8 [3, 1, 16, 0, 2, 0, 0, 9]))) 7 = -9 := by
  have := c110_sign (N := 8) ⟨3, rfl⟩ (i := 0) (by norm_num) 0 (msgRing 8 [3, 1, 16, 0, 2, 0, 0, 9]) (k := 7) (by norm_num)
  refine this.trans ?_
  rw [cf_stride (by norm_num) _ _ _ (by norm_num), if_pos (by norm_num)]
  unfold msgRing
  rw [cf_ofCoeffs (by norm_num) _ (by norm_num)]
  rfl

/-- C110: the two children of a node in the tree of the Readme: `C + Subs(C, k)` keeps twice every second term, and `C - Subs(C, k)` times
`X^(-2^i)` twice the others, moved to the same powers. -/
theorem c110_split (hK : ∃ K, N = 2 ^ K) {i : Nat} (hi : 2 ^ i < N) (j : Nat) (M : Rg N) :
    stride N i j M + sg (N / 2 ^ i + 1) (stride N i j M) = 2 * stride N (i + 1) j M ∧
      (stride N i j M - sg (N / 2 ^ i + 1) (stride N i j M)) * -(xx ^ (N - 2 ^ i)) = 2 * stride N (i + 1) (j + 2 ^ i) M := by
  obtain ⟨K, rfl⟩ := hK
  have hN : 0 < 2 ^ K := by positivity
  have hi' : i < K := (Nat.pow_lt_pow_iff_right (by norm_num)).mp hi
  rw [Nat.pow_div hi'.le (by norm_num)]
  have cancel : ∀ f g : Rg (2 ^ K), ((2 ^ i : ℤ) : Rg (2 ^ K)) * f = ((2 ^ i : ℤ) : Rg (2 ^ K)) * g → f = g := fun f g e =>
    ext_cf hN fun k _ => by
      have := congrArg (fun f => cf f k) e
      simp only [cf_int_mul hN] at this
      exact mul_left_cancel₀ (by positivity) this
  have he := tr_even hi' j M
  have ho := tr_odd hi' j M
  rw [tr_stride hi'.le, tr_stride (i := i + 1) hi', sg_mul hN (odd_exp hi'), sg_int hN (odd_exp hi')] at he ho
  constructor
  · refine cancel _ _ ?_
    rw [mul_add, he]
    push_cast
    ring
  · refine cancel _ _ ?_
    rw [← mul_assoc, mul_sub, ho]
    have := xx_inv hi'
    calc _ = ((2 ^ (i + 1) : ℤ) : Rg (2 ^ K)) * stride (2 ^ K) (i + 1) (j + 2 ^ i) M * (xx ^ 2 ^ i * -(xx ^ (2 ^ K - 2 ^ i))) := by ring
      _ = _ := by
        rw [this]
        push_cast
        ring

/-- The two halves of `[3, 1, 16, 0, 2, 0, 0, 9]`. -/
example : (msgRing 8 [3, 1, 16, 0, 2, 0, 0, 9] + sg 9 (msgRing 8 [3, 1, 16, 0, 2, 0, 0, 9]) : Rg 8) = 2 * msgRing 8 [3, 0, 16, 0, 2, 0, 0, 0] ∧
    ((msgRing 8 [3, 1, 16, 0, 2, 0, 0, 9] - sg 9 (msgRing 8 [3, 1, 16, 0, 2, 0, 0, 9])) * -(xx ^ 7) : Rg 8) = 2 * msgRing 8 [1, 0, 0, 0, 0, 0, 9, 0] := by
  have hN : (0 : Nat) < 8 := by norm_num
  obtain ⟨h1, h2⟩ := c110_split (N := 8) ⟨3, rfl⟩ (i := 0) (by norm_num) 0 (msgRing 8 [3, 1, 16, 0, 2, 0, 0, 9])
  have e : ∀ (i j : Nat) (v w : List Nat), (∀ k, k < 8 → (if 2 ^ i ∣ k then v.getD (j + k) 0 else 0) = w.getD k 0) →
      (∀ k, k < 8 → 2 ^ i ∣ k → j + k < 8) → stride 8 i j (msgRing 8 v) = msgRing 8 w := fun i j v w hw hj => ext_cf hN fun k hk => by
    rw [cf_stride hN _ _ _ hk]
    unfold msgRing
    rw [cf_ofCoeffs hN _ hk, ← hw k hk]
    split_ifs with hd
    · rw [cf_ofCoeffs hN _ (hj k hk hd)]
    · rfl
  rw [e 0 0 _ [3, 1, 16, 0, 2, 0, 0, 9] (by decide) (by decide)] at h1 h2
  rw [e 1 0 _ [3, 0, 16, 0, 2, 0, 0, 0] (by decide) (by decide)] at h1
  rw [e 1 _ _ [1, 0, 0, 0, 0, 0, 9, 0] (by decide) (by decide)] at h2
  exact ⟨h1, h2⟩

theorem Readme.encodes_mono (hN : 0 < N) {Q : Nat} {s m r0 r1 : Rg N} {V : ℤ} (h : Encodes t Q m (phase s [r0, r1]) V) (k : Nat) :
    Encodes t Q (m * -(xx ^ k)) (phase s [r0 * -(xx ^ k), r1 * -(xx ^ k)]) V := by
  obtain ⟨v, w, hv, e⟩ := h
  refine ⟨v * -(xx ^ k), w * -(xx ^ k), ?_, ?_⟩
  · rw [mul_neg, mul_comm]
    exact (hv.xx_pow_mul hN _).neg hN
  · generalize (-(xx ^ k) : Rg N) = u
    rw [show phase s [r0 * u, r1 * u] = phase s [r0, r1] * u by simp only [BfvP.phase_two]; ring, ← mul_assoc, e]
    ring

/-- C110: one step of `unpack` does this to ciphertexts: from an encoding of any `m` it makes encodings of `m + m(X^k)` and
`(m - m(X^k))·X^(-2^i)`, for `k = N/2^i + 1`, and changes no other entry. -/
theorem c110_step (h : IsParams N t l variance P) (pr : Profile) {s : Rg N} {B B0 B1 : ℤ} {ev : Evaluation} (hev : IsEval P l s B B0 B1 ev)
    {xPows : List Poly} (hx : IsMonomials N P xPows) {i : Nat} (hi : 2 ^ i < N) {bits : List BfvCipherText} {j : Nat}
    (hj : j + 2 ^ i < bits.length) {ct : BfvCipherText} (hct : bits[j]? = some ct) {m : Rg N} {V : ℤ} (henc : CtEncodes P l t s m V ct) :
    ∃ ce co, Evaluation.unpackStep pr ev xPows (N / 2 ^ i + 1) i bits j = .ok ((bits.set j ce).set (j + 2 ^ i) co) ∧
      CtEncodes P l t s (m + sg (N / 2 ^ i + 1) m) (2 * V + t * B) ce ∧
      CtEncodes P l t s ((m - sg (N / 2 ^ i + 1) m) * -(xx ^ (N - 2 ^ i))) (2 * V + t * B) co := by
  obtain ⟨K, -, rfl, -⟩ := BfvP.params h
  have hN : 0 < 2 ^ K := by positivity
  have hi' : i < K := (Nat.pow_lt_pow_iff_right (by norm_num)).mp hi
  obtain ⟨g, hg, hgal⟩ := hev.gk i hi
  obtain ⟨xp, hxp, hpow⟩ := hx i hi
  rw [Nat.pow_div hi'.le (by norm_num)] at *
  obtain ⟨f0, f1, hc, he⟩ := henc
  obtain ⟨ce, co, g0, g1, r0, r1, E, s1, s2, s3, s4, s5, s6⟩ := unpackStep_any h pr hg hgal hxp hpow hj hct hc
  have ho := odd_exp hi'
  have hcop : Nat.Coprime (2 ^ (K - i) + 1) (2 ^ K) := Nat.Coprime.pow_right K (Nat.coprime_two_right.mpr ho)
  have hs := BfvP.Encodes.addError hN (BfvP.Encodes.sg hN he ho hcop) s4
  refine ⟨ce, co, s1, ⟨g0, g1, s2, ?_⟩, ⟨_, _, s3, ?_⟩⟩
  · rw [show 2 * V + t * B = V + (V + t * B) by ring]
    exact BfvP.Encodes.congr (BfvP.Encodes.add hN he hs) s5
  · rw [show 2 * V + t * B = V + (V + t * B) by ring]
    exact Readme.encodes_mono hN (BfvP.Encodes.congr (BfvP.Encodes.sub hN he hs) s6) _

/-- With actual keys, on an actual encryption of `[3, 1, 16, 0, 2, 0, 0, 9]`, in the first stage: twice the even powers, and twice the odd
powers divided by `X`. -/
example : ∃ P sk ct ev xs ce co V, IsParams 8 17 Ex.mods 10 P ∧ IsKey P sk ∧
    Evaluation.build .release sk P (fun _ _ _ _ => 0) (fun _ _ i => i % 1000) (fun _ _ _ => 0) (fun _ _ _ => 0) (fun _ i => i % 1000)
      (fun _ i => i % 1000) = .ok ev ∧
    Evaluation.unpackStep .debug ev xs 9 0 [ct, ct, ct] 0 = .ok [ce, co, ct] ∧
    CtEncodes P Ex.mods 17 (keyRing 8 sk) (2 * stride 8 1 0 (msgRing 8 [3, 1, 16, 0, 2, 0, 0, 9])) V ce ∧
    CtEncodes P Ex.mods 17 (keyRing 8 sk) (2 * stride 8 1 1 (msgRing 8 [3, 1, 16, 0, 2, 0, 0, 9])) V co := by
  obtain ⟨P, sk, ct, f0, f1, h, hk, -, hct, he⟩ := Ex.setup
  obtain ⟨ev, h1, h2⟩ := c41_build h hk .release (by norm_num) (by norm_num) (by decide) (by norm_num) (aTape := fun _ _ _ _ => 0)
    (fun _ _ => Ex.tape0 Ex.mods_gt) (rng := fun _ _ i => i % 1000) (fun _ _ => Ex.wordTape) (a0 := fun _ _ _ => 0)
    (fun _ => Ex.tape0 Ex.mods_gt) (a1 := fun _ _ _ => 0) (fun _ => Ex.tape0 Ex.mods_gt) (r0 := fun _ i => i % 1000) (fun _ => Ex.wordTape)
    (r1 := fun _ i => i % 1000) (fun _ => Ex.wordTape)
  obtain ⟨xs, hx⟩ := Ex.monomials h (by decide)
  obtain ⟨ce, co, s1, s2, s3⟩ := c110_step h .debug h2 hx (i := 0) (by norm_num) (bits := [ct, ct, ct]) (j := 0) (by simp) rfl ⟨f0, f1, hct, he⟩
  obtain ⟨e1, e2⟩ := c110_split (N := 8) ⟨3, rfl⟩ (i := 0) (by norm_num) 0 (msgRing 8 [3, 1, 16, 0, 2, 0, 0, 9])
  rw [show stride 8 0 0 (msgRing 8 [3, 1, 16, 0, 2, 0, 0, 9]) = msgRing 8 [3, 1, 16, 0, 2, 0, 0, 9] from ext_cf (by norm_num) fun k hk => by
    rw [cf_stride (by norm_num) _ _ _ hk, if_pos (by simp), Nat.zero_add]] at e1 e2
  exact ⟨P, sk, ct, ev, xs, ce, co, _, h, hk, h1, s1, e1 ▸ s2, e2 ▸ s3⟩

/-- C110: the tree of the Readme: after the first `i` stages on `N` copies of a ciphertext that encodes `m`, the entries `j < 2^i` encode
`2^i·[m_j, m_(j+2^i), …]`; after all of them the entries encode `N·m_j`. -/
theorem c110_tree (h : IsParams N t l variance P) (pr : Profile) {s : Rg N} {B B0 B1 : ℤ} {ev : Evaluation} (hev : IsEval P l s B B0 B1 ev)
    {xPows : List Poly} (hx : IsMonomials N P xPows) {ct : BfvCipherText} {m : Rg N} {V : ℤ} (henc : CtEncodes P l t s m V ct) :
    (∀ i, 2 ^ i ≤ N → ∃ bits, foldR (Evaluation.unpackStage pr ev xPows N) (List.replicate N ct) (List.range i) = .ok bits ∧ bits.length = N ∧
      ∀ j, j < 2 ^ i → ∃ c, bits[j]? = some c ∧
        CtEncodes P l t s (((2 ^ i : ℤ) : Rg N) * stride N i j m) (2 ^ i * V + t * ((2 ^ i - 1) * B)) c) ∧
    ∃ K, 2 ^ K = N ∧ ∀ j, j < N → ((2 ^ K : ℤ) : Rg N) * stride N K j m = ((N * cf m j : ℤ) : Rg N) := by
  obtain ⟨K, -, rfl, -⟩ := BfvP.params h
  have hN : 0 < 2 ^ K := by positivity
  obtain ⟨ext, L, hw, hL, -, -, -⟩ := level_zero h
  obtain ⟨f0, f1, hc, he⟩ := henc
  refine ⟨fun i hi => ?_, K, rfl, fun j _ => ?_⟩
  · have hi' : i ≤ K := (Nat.pow_le_pow_iff_right (by norm_num)).mp hi
    obtain ⟨bits, b1, b2, b3⟩ := unpackStages_some h hL.wf.ctx.core.K_le pr hev hx hc hi'
    refine ⟨bits, b1, b2, fun j hj => ?_⟩
    obtain ⟨c, c1, g0, g1, E, c2, c3, c4⟩ := b3 j hj
    refine ⟨c, c1, g0, g1, c2, BfvP.Encodes.congr ?_ c4⟩
    rw [tr_stride hi']
    have := BfvP.Encodes.addError hN (encodes_int hN (encodes_stride he hi' hj) (2 ^ i)) c3
    push_cast at this ⊢
    exact this
  · rw [← tr_stride le_rfl, tr_last]
    push_cast
    rfl

/-- With actual keys, on an actual encryption of `[3, 1, 16, 0, 2, 0, 0, 9]`: after two stages entry 3 encodes `4·(0 + 9·X^4)`. -/
example : ∃ P sk ct ev xs bits c V, IsParams 8 17 Ex.mods 10 P ∧ IsKey P sk ∧
    Evaluation.build .release sk P (fun _ _ _ _ => 0) (fun _ _ i => i % 1000) (fun _ _ _ => 0) (fun _ _ _ => 0) (fun _ i => i % 1000)
      (fun _ i => i % 1000) = .ok ev ∧
    foldR (Evaluation.unpackStage .debug ev xs 8) (List.replicate 8 ct) [0, 1] = .ok bits ∧ bits[3]? = some c ∧
    CtEncodes P Ex.mods 17 (keyRing 8 sk) (((4 : ℤ) : Rg 8) * msgRing 8 [0, 0, 0, 0, 9]) V c := by
  obtain ⟨P, sk, ct, f0, f1, h, hk, -, hct, he⟩ := Ex.setup
  obtain ⟨ev, h1, h2⟩ := c41_build h hk .release (by norm_num) (by norm_num) (by decide) (by norm_num) (aTape := fun _ _ _ _ => 0)
    (fun _ _ => Ex.tape0 Ex.mods_gt) (rng := fun _ _ i => i % 1000) (fun _ _ => Ex.wordTape) (a0 := fun _ _ _ => 0)
    (fun _ => Ex.tape0 Ex.mods_gt) (a1 := fun _ _ _ => 0) (fun _ => Ex.tape0 Ex.mods_gt) (r0 := fun _ i => i % 1000) (fun _ => Ex.wordTape)
    (r1 := fun _ i => i % 1000) (fun _ => Ex.wordTape)
  obtain ⟨xs, hx⟩ := Ex.monomials h (by decide)
  obtain ⟨bits, b1, -, b3⟩ := (c110_tree h .debug h2 hx ⟨f0, f1, hct, he⟩).1 2 (by norm_num)
  obtain ⟨c, c1, c2⟩ := b3 3 (by norm_num)
  have hN : (0 : Nat) < 8 := by norm_num
  have e : stride 8 2 3 (msgRing 8 [3, 1, 16, 0, 2, 0, 0, 9]) = msgRing 8 [0, 0, 0, 0, 9] := ext_cf hN fun k hk => by
    rw [cf_stride hN _ _ _ hk]
    unfold msgRing
    rw [cf_ofCoeffs hN _ hk]
    split_ifs with hd
    · rw [cf_ofCoeffs hN _ (show 3 + k < 8 by revert hd; revert k; decide)]
      revert hd; revert k; decide
    · revert hd; revert k; decide
  rw [e] at c2
  exact ⟨P, sk, ct, ev, xs, bits, c, _, h, hk, h1, b1, c1, by norm_num at c2 ⊢; exact c2⟩

end OnionPIR
