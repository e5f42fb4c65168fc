import Verif.Proofs.LeakKeys
import Verif.Props.Leak
import Verif.Props.Misc
import Verif.Props.Unpack
import Verif.Props.Pvw
/-
C93, continued: the traces of key generation, of the encryptions of plaintexts and RGSW messages, of the client and of PVW.
-/
namespace OnionPIR
open Lk Rg Poly Spec

variable {N t variance : Nat} {l : List Nat} {P : BfvParameters}

/-- C93: the further functions with a trace return what the functions of the model return, in both builds. -/
theorem c93_key_values (pr : Profile) (P : BfvParameters) (sk : SecretKey) :
    (∀ (p : Poly) s, (p.substituteL pr s).val = p.substitute pr s) ∧ (∀ (p : Poly) b, (p.mulBigL pr b).val = p.mulBig pr b) ∧
    (∀ pt a rng, (sk.encryptL pr pt a rng).val = sk.encrypt pr pt a rng) ∧
    (∀ p i j a rng, (Ksk.newL pr sk p i j a rng).val = Ksk.new pr sk p i j a rng) ∧
    (∀ pt i j a rng, (Ksk.newWithPtL pr sk pt i j a rng).val = Ksk.newWithPt pr sk pt i j a rng) ∧
    (∀ s i a rng, (GaliosKey.newL pr sk s i a rng).val = GaliosKey.new pr sk s i a rng) ∧
    (∀ i a rng, (RelinearizationKey.newL pr sk i a rng).val = RelinearizationKey.new pr sk i a rng) ∧
    (∀ m a0 a1 r0 r1, (RgswCt.encryptPolyL pr sk m a0 a1 r0 r1).val = RgswCt.encryptPoly pr sk m a0 a1 r0 r1) ∧
    (∀ m a0 a1 r0 r1, (RgswCt.encryptL pr sk m a0 a1 r0 r1).val = RgswCt.encrypt pr sk m a0 a1 r0 r1) ∧
    (∀ a rng a0 a1 r0 r1, (Evaluation.buildL pr sk P a rng a0 a1 r0 r1).val = Evaluation.build pr sk P a rng a0 a1 r0 r1) ∧
    (∀ c q n, (Client.encodeL pr c q n).val = Client.encode pr c q n) ∧
    (∀ s params a rng, (Pvw.genPkL pr s params a rng).val = Pvw.genPk pr s params a rng) ∧
    (∀ pk params msg e, (Pvw.encryptL pr pk params msg e).val = Pvw.encrypt pr pk params msg e) ∧
    (∀ s params ct, (Pvw.decryptL pr s params ct).val = Pvw.decrypt pr s params ct) :=
  ⟨Poly.substituteL_val pr, Poly.mulBigL_val pr, SecretKey.encryptL_val pr sk, Ksk.newL_val pr sk, Ksk.newWithPtL_val pr sk, GaliosKey.newL_val pr sk,
    RelinearizationKey.newL_val pr sk, RgswCt.encryptPolyL_val pr sk, RgswCt.encryptL_val pr sk, Evaluation.buildL_val pr sk P, Client.encodeL_val pr,
    Pvw.genPkL_val pr, Pvw.encryptL_val pr, Pvw.decryptL_val pr⟩

/-- Two runs that succeed and are related leave one trace. -/
theorem same_trace {α : Type} {R : α → α → Prop} {x y : Lk α} (h : Sim R x y) {a b : α} (ha : x.val = .ok a) (hb : y.val = .ok b) :
    ∃ a b tr, x = ⟨.ok a, tr⟩ ∧ y = ⟨.ok b, tr⟩ := by
  obtain ⟨x1, x2⟩ := x
  obtain ⟨y1, y2⟩ := y
  simp only at ha hb
  subst ha hb
  have := (h a b rfl rfl).1
  simp only at this
  exact ⟨a, b, x2, rfl, by rw [this]⟩

/-- C93: the encryption of a plaintext leaves the same trace for all keys, values and random numbers. -/
theorem c93_encrypt_plain (h : IsParams N t l variance P) (hv1 : 1 ≤ variance) (hv2 : variance ≤ 16) {sk sk' : SecretKey} (hk : IsKey P sk)
    (hk' : IsKey P sk') (hl : sk.coeffs.length = sk'.coeffs.length) {pt pt' : Plaintext} (hp : pt.params = P) (hp' : pt'.params = P)
    (hlev : pt.level < l.length) (hll : pt.level = pt'.level) (hlen : pt.values.length ≤ N) (hvl : pt.values.length = pt'.values.length)
    (hv : ∀ x ∈ pt.values, x < 2 ^ 64) (hv' : ∀ x ∈ pt'.values, x < 2 ^ 64) {a a' : Nat → Nat → Nat} (ha : TapeAt l pt.level a)
    (ha' : TapeAt l pt.level a') {rng rng' : Nat → Nat} (hr : ∀ i, rng i < 2 ^ 64) (hr' : ∀ i, rng' i < 2 ^ 64) :
    ∃ ct ct' tr, sk.encryptL .release pt a rng = ⟨.ok ct, tr⟩ ∧ sk'.encryptL .release pt' a' rng' = ⟨.ok ct', tr⟩ := by
  obtain ⟨ct, -, -, h1, -⟩ := c30_encrypt_components h hk .release hv1 hv2 hp hlev hlen hv ha hr
  obtain ⟨ct', -, -, h2, -⟩ := c30_encrypt_components h hk' .release hv1 hv2 hp' (hll ▸ hlev) (hvl ▸ hlen) hv' (hll ▸ ha') hr'
  rw [← SecretKey.encryptL_val] at h1 h2
  exact same_trace (SecretKey.encryptL_sim (hk.1.trans hk'.1.symm) hl (hp.trans hp'.symm) hll hvl a a' rng rng') h1 h2

/-- C93: key-switching keys leave the same trace for all keys and all switched polynomials. -/
theorem c93_ksk (h : IsParams N t l variance P) (hv1 : 1 ≤ variance) (hv2 : variance ≤ 16) {sk sk' : SecretKey} (hk : IsKey P sk) (hk' : IsKey P sk')
    (hl : sk.coeffs.length = sk'.coeffs.length) {i : Nat} {f g : Rg N} {p p' : Poly} (hp : PolyAt P i f p) (hp' : PolyAt P i g p')
    {a a' : Nat → Nat → Nat → Nat} (ha : ∀ j, TapeAt l i (a j)) (ha' : ∀ j, TapeAt l i (a' j)) {rng rng' : Nat → Nat → Nat}
    (hr : ∀ j i, rng j i < 2 ^ 64) (hr' : ∀ j i, rng' j i < 2 ^ 64) :
    ∃ k k' tr, Ksk.newL .release sk p i i a rng = ⟨.ok k, tr⟩ ∧ Ksk.newL .release sk' p' i i a' rng' = ⟨.ok k', tr⟩ := by
  obtain ⟨k, h1, -⟩ := c36_new h hk .release hv1 hv2 hp ha hr
  obtain ⟨k', h2, -⟩ := c36_new h hk' .release hv1 hv2 hp' ha' hr'
  rw [← Ksk.newL_val] at h1 h2
  exact same_trace (Ksk.newL_sim (hk.1.trans hk'.1.symm) hl (like_polyAt h hp hp') i i a a' rng rng') h1 h2

/-- C93: Galois keys leave the same trace for all keys; the trace depends on the exponent, which is public. -/
theorem c93_galois_key (h : IsParams N t l variance P) (hv1 : 1 ≤ variance) (hv2 : variance ≤ 16) {sk sk' : SecretKey} (hk : IsKey P sk)
    (hk' : IsKey P sk') (hl : sk.coeffs.length = sk'.coeffs.length) (hne : l.length ≠ 1) (hN : N ≤ 2 ^ 31) {i : Nat} {c : RqContext}
    (hi : P.qCtxs[i]? = some c) {e : Nat} (he : Odd e) {sub : Substitution} (hs : Substitution.new .release c e = .ok sub)
    {a a' : Nat → Nat → Nat → Nat} (ha : ∀ j, TapeAt l i (a j)) (ha' : ∀ j, TapeAt l i (a' j)) {rng rng' : Nat → Nat → Nat}
    (hr : ∀ j i, rng j i < 2 ^ 64) (hr' : ∀ j i, rng' j i < 2 ^ 64) :
    ∃ k k' tr, GaliosKey.newL .release sk sub i a rng = ⟨.ok k, tr⟩ ∧ GaliosKey.newL .release sk' sub i a' rng' = ⟨.ok k', tr⟩ := by
  obtain ⟨s1, k, e1, h1, -⟩ := c37_galois h hk .release .release hv1 hv2 hne hN hi he ha hr
  obtain ⟨s2, k', e2, h2, -⟩ := c37_galois h hk' .release .release hv1 hv2 hne hN hi he ha' hr'
  obtain rfl := Except.ok.inj (hs.symm.trans e1)
  obtain rfl := Except.ok.inj (hs.symm.trans e2)
  rw [← GaliosKey.newL_val] at h1 h2
  exact same_trace (GaliosKey.newL_sim (hk.1.trans hk'.1.symm) hl sub i a a' rng rng') h1 h2

/-- C93: relinearization keys leave the same trace for all keys. -/
theorem c93_relin_key (h : IsParams N t l variance P) (hv1 : 1 ≤ variance) (hv2 : variance ≤ 16) {sk sk' : SecretKey} (hk : IsKey P sk)
    (hk' : IsKey P sk') (hl : sk.coeffs.length = sk'.coeffs.length) {i : Nat} (hi : i < l.length)
    {a a' : Nat → Nat → Nat → Nat} (ha : ∀ j, TapeAt l i (a j)) (ha' : ∀ j, TapeAt l i (a' j)) {rng rng' : Nat → Nat → Nat}
    (hr : ∀ j i, rng j i < 2 ^ 64) (hr' : ∀ j i, rng' j i < 2 ^ 64) :
    ∃ k k' tr, RelinearizationKey.newL .release sk i a rng = ⟨.ok k, tr⟩ ∧ RelinearizationKey.newL .release sk' i a' rng' = ⟨.ok k', tr⟩ := by
  obtain ⟨k, h1, -⟩ := c38_relinearize h hk .release .release hv1 hv2 hi ha hr
  obtain ⟨k', h2, -⟩ := c38_relinearize h hk' .release .release hv1 hv2 hi ha' hr'
  rw [← RelinearizationKey.newL_val] at h1 h2
  exact same_trace (RelinearizationKey.newL_sim (hk.1.trans hk'.1.symm) hl i a a' rng rng') h1 h2

/-- C93: RGSW encryption leaves the same trace for all keys, values and random numbers. -/
theorem c93_rgsw (h : IsParams N t l variance P) (hv1 : 1 ≤ variance) (hv2 : variance ≤ 16) {sk sk' : SecretKey} (hk : IsKey P sk)
    (hk' : IsKey P sk') (hl : sk.coeffs.length = sk'.coeffs.length) {pt pt' : Plaintext} (hp : pt.params = P) (hp' : pt'.params = P)
    (hlev : pt.level < l.length) (hll : pt.level = pt'.level) (hlen : pt.values.length ≤ N) (hvl : pt.values.length = pt'.values.length)
    (hv : ∀ x ∈ pt.values, x < 2 ^ 64) (hv' : ∀ x ∈ pt'.values, x < 2 ^ 64) {a0 a1 b0 b1 : Nat → Nat → Nat → Nat}
    (ha0 : ∀ j, TapeAt l pt.level (a0 j)) (ha1 : ∀ j, TapeAt l pt.level (a1 j)) (hb0 : ∀ j, TapeAt l pt.level (b0 j))
    (hb1 : ∀ j, TapeAt l pt.level (b1 j)) {r0 r1 s0 s1 : Nat → Nat → Nat} (hr0 : ∀ j i, r0 j i < 2 ^ 64) (hr1 : ∀ j i, r1 j i < 2 ^ 64)
    (hs0 : ∀ j i, s0 j i < 2 ^ 64) (hs1 : ∀ j i, s1 j i < 2 ^ 64) :
    ∃ g g' tr, RgswCt.encryptL .release sk pt a0 a1 r0 r1 = ⟨.ok g, tr⟩ ∧ RgswCt.encryptL .release sk' pt' b0 b1 s0 s1 = ⟨.ok g', tr⟩ := by
  obtain ⟨g, h1, -⟩ := c39_encrypt h hk .release hv1 hv2 hp hlev hlen hv ha0 ha1 hr0 hr1
  obtain ⟨g', h2, -⟩ := c39_encrypt h hk' .release hv1 hv2 hp' (hll ▸ hlev) (hvl ▸ hlen) hv' (hll ▸ hb0) (hll ▸ hb1) hs0 hs1
  rw [← RgswCt.encryptL_val] at h1 h2
  exact same_trace (RgswCt.encryptL_sim (hk.1.trans hk'.1.symm) hl (hp.trans hp'.symm) hll hvl a0 a1 b0 b1 r0 r1 s0 s1) h1 h2

/-- C93: the evaluation keys that the client sends leave the same trace for all keys and random numbers. -/
theorem c93_build (h : IsParams N t l variance P) (hv1 : 1 ≤ variance) (hv2 : variance ≤ 16) {sk sk' : SecretKey} (hk : IsKey P sk)
    (hk' : IsKey P sk') (hl : sk.coeffs.length = sk'.coeffs.length) (hne : l.length ≠ 1) (hN : N ≤ 2 ^ 31)
    {a a' : Nat → Nat → Nat → Nat → Nat} (ha : ∀ k j, TapeAt l 0 (a k j)) (ha' : ∀ k j, TapeAt l 0 (a' k j)) {rng rng' : Nat → Nat → Nat → Nat}
    (hr : ∀ k j i, rng k j i < 2 ^ 64) (hr' : ∀ k j i, rng' k j i < 2 ^ 64) {a0 a1 b0 b1 : Nat → Nat → Nat → Nat}
    (ha0 : ∀ j, TapeAt l 0 (a0 j)) (ha1 : ∀ j, TapeAt l 0 (a1 j)) (hb0 : ∀ j, TapeAt l 0 (b0 j)) (hb1 : ∀ j, TapeAt l 0 (b1 j))
    {r0 r1 s0 s1 : Nat → Nat → Nat} (hr0 : ∀ j i, r0 j i < 2 ^ 64) (hr1 : ∀ j i, r1 j i < 2 ^ 64)
    (hs0 : ∀ j i, s0 j i < 2 ^ 64) (hs1 : ∀ j i, s1 j i < 2 ^ 64) :
    ∃ ev ev' tr, Evaluation.buildL .release sk P a rng a0 a1 r0 r1 = ⟨.ok ev, tr⟩ ∧
      Evaluation.buildL .release sk' P a' rng' b0 b1 s0 s1 = ⟨.ok ev', tr⟩ := by
  obtain ⟨ev, h1, -⟩ := c41_build h hk .release hv1 hv2 hne hN ha hr ha0 ha1 hr0 hr1
  obtain ⟨ev', h2, -⟩ := c41_build h hk' .release hv1 hv2 hne hN ha' hr' hb0 hb1 hs0 hs1
  rw [← Evaluation.buildL_val] at h1 h2
  exact same_trace (Evaluation.buildL_sim (hk.1.trans hk'.1.symm) hl P a a' rng rng' a0 a1 b0 b1 r0 r1 s0 s1) h1 h2

/-- C93: encoding a query leaves the same trace whatever is asked for. -/
theorem c93_query (c : Client) {i0 i0' : Nat} {rest rest' : List Nat} (h0 : i0 < c.firstDim) (h0' : i0' < c.firstDim) (hr : ∀ i ∈ rest, i < c.dim)
    (hr' : ∀ i ∈ rest', i < c.dim) (hl : rest.length = rest'.length) (hd : c.dim ^ rest.length < 2 ^ 64) (h32 : rest.length < 2 ^ 32) {rows : Nat}
    (hrows : rows = c.firstDim * c.dim ^ rest.length) :
    ∃ v v' tr, c.encodeL .release (i0 :: rest) rows = ⟨.ok v, tr⟩ ∧ c.encodeL .release (i0' :: rest') rows = ⟨.ok v', tr⟩ ∧ v.length = v'.length := by
  obtain ⟨v, h1, e1, -⟩ := c42_encode .release c h0 hr hd h32 hrows
  obtain ⟨v', h2, e2, -⟩ := c42_encode .release c h0' hr' (hl ▸ hd) (hl ▸ h32) (hl ▸ hrows)
  rw [← Client.encodeL_val] at h1 h2
  have hs := Client.encodeL_sim c (q := i0 :: rest) (q' := i0' :: rest') (by simp [SameLen, hl]) (by simpa using h0) (by simpa using h0')
    (by simpa using hr) (by simpa using hr') rows
  obtain ⟨a, b, tr, h3, h4⟩ := same_trace hs h1 h2
  obtain rfl : v = a := Except.ok.inj (h1.symm.trans (by rw [h3]))
  obtain rfl : v' = b := Except.ok.inj (h2.symm.trans (by rw [h4]))
  exact ⟨v, v', tr, h3, h4, by rw [e1, e2, hl]⟩

/-- The noisy slot that PVW decryption rounds. -/
def Spec.pvwPhase (params : PvwParams) (rng : Nat → Nat → Nat) (e : Nat → Nat) (msg : List Nat) (l : Nat) : Nat :=
  ((pvwError params rng e l + ((params.q / 2 * msg.getD l 0 : Nat) : Int)) % (params.q : Int)).toNat

variable {params : PvwParams} {skTape aTape rng skTape' aTape' rng' : Nat → Nat → Nat} {e e' : Nat → Nat}

theorem flatMap_division {t : Nat} : ∀ {b b' : List Nat}, b.length = b'.length →
    (b.flatMap (fun v => [Event.branch true, .division (v + t / 4) (t / 2)]) ++ [.branch false] =
      b'.flatMap (fun v => [Event.branch true, .division (v + t / 4) (t / 2)]) ++ [.branch false] ↔ b = b')
  | [], [], _ => by simp
  | [], _ :: _, h => by simp at h
  | _ :: _, [], h => by simp at h
  | a :: b, a' :: b', h => by
    have := flatMap_division (t := t) (b := b) (b' := b') (by simpa using h)
    simp only [List.flatMap_cons, List.cons_append, List.nil_append, List.cons.injEq, Event.division.injEq, true_and, and_true, Nat.add_right_cancel_iff, this]

/-- C93: PVW key generation and encryption leave the same trace for all keys, messages and random numbers. The trace of decryption is different: the
division in the rounding (src/pvw.rs:111) has the noisy slots as operands, and the trace reveals exactly these. -/
theorem c93_pvw (h : PvwChoices params skTape aTape rng e) (h' : PvwChoices params skTape' aTape' rng' e') {msg msg' : List Nat}
    (hlen : msg.length = params.ell) (hlen' : msg'.length = params.ell) (hbit : ∀ x ∈ msg, x < 2) (hbit' : ∀ x ∈ msg', x < 2) :
    ∃ sk sk' pk pk' ct ct' tr tr', Pvw.genSk params skTape = .ok sk ∧ Pvw.genSk params skTape' = .ok sk' ∧
      Pvw.genPkL .release sk params aTape rng = ⟨.ok pk, tr⟩ ∧ Pvw.genPkL .release sk' params aTape' rng' = ⟨.ok pk', tr⟩ ∧
      Pvw.encryptL .release pk params msg e = ⟨.ok ct, tr'⟩ ∧ Pvw.encryptL .release pk' params msg' e' = ⟨.ok ct', tr'⟩ ∧
      ((Pvw.decryptL .release sk params ct).trace = (Pvw.decryptL .release sk' params ct').trace ↔
        ∀ l < params.ell, pvwPhase params rng e msg l = pvwPhase params rng' e' msg' l) := by
  obtain ⟨q, hq, -⟩ := Modulus.new_ok h.two_le h.lt
  have key : ∀ {skTape aTape rng : Nat → Nat → Nat} {e : Nat → Nat} {msg : List Nat}, PvwChoices params skTape aTape rng e → msg.length = params.ell →
      (∀ x ∈ msg, x < 2) → ∃ sk pk ct, Pvw.genSk params skTape = .ok sk ∧ (Pvw.genPkL .release sk params aTape rng).val = .ok pk ∧
        (Pvw.encryptL .release pk params msg e).val = .ok ct ∧ ct.b.length = params.ell ∧
        foldR (Pvw.decryptStep .release params q sk ct.a) ct.b (List.range params.ell) =
          .ok ((List.range params.ell).map fun l => pvwPhase params rng e msg l) := by
    intro skTape aTape rng e msg h hlen hbit
    have hsk : ∀ l, l < params.ell → ∃ s, ((List.range params.ell).map fun l => Pvw.randomVec params.n (skTape l))[l]? = some s ∧
        Pvw.Vec params.q params.n s := fun l hl =>
      ⟨Pvw.randomVec params.n (skTape l), by rw [List.getElem?_map, List.getElem?_range hl]; rfl, Pvw.vec_randomVec (h.sk l)⟩
    obtain ⟨pk, h1, -, h2⟩ := Pvw.genPk_ok hq .release h.var_pos h.var_le h.a h.rng hsk
    obtain ⟨ct, h3, h4, h5, h6⟩ := Pvw.encrypt_ok hq .release h2 hlen hbit h.e
    exact ⟨_, pk, ct, by rw [Pvw.genSk, hq]; rfl, by rw [Pvw.genPkL_val]; exact h1, by rw [Pvw.encryptL_val]; exact h3, h5.1,
      Pvw.decrypt_phases hq .release hsk h4 h5 h6⟩
  obtain ⟨sk, pk, ct, a1, a2, a3, a4, a5⟩ := key h hlen hbit
  obtain ⟨sk', pk', ct', b1, b2, b3, b4, b5⟩ := key h' hlen' hbit'
  have hp : ∀ (rng : Nat → Nat → Nat) (e : Nat → Nat) (msg : List Nat), ∀ v ∈ (List.range params.ell).map (pvwPhase params rng e msg), v < params.q := by
    intro rng e msg v hv
    obtain ⟨l, -, rfl⟩ := List.mem_map.mp hv
    have := h.two_le
    have := Int.emod_lt_of_pos (pvwError params rng e l + ((params.q / 2 * msg.getD l 0 : Nat) : Int)) (show (0 : Int) < params.q by omega)
    unfold pvwPhase
    omega
  obtain ⟨_, _, tr, c1, c2⟩ := same_trace (Pvw.genPkL_sim sk sk' params aTape aTape' rng rng') a2 b2
  obtain rfl : pk = _ := Except.ok.inj (a2.symm.trans (by rw [c1]))
  obtain rfl : pk' = _ := Except.ok.inj (b2.symm.trans (by rw [c2]))
  obtain ⟨_, _, tr', d1, d2⟩ := same_trace (Pvw.encryptL_sim pk pk' params (hlen.trans hlen'.symm) e e') a3 b3
  obtain rfl : ct = _ := Except.ok.inj (a3.symm.trans (by rw [d1]))
  obtain rfl : ct' = _ := Except.ok.inj (b3.symm.trans (by rw [d2]))
  refine ⟨sk, sk', pk, pk', ct, ct', tr, tr', a1, b1, c1, c2, d1, d2, ?_⟩
  have e1 : (Lk.fold (Pvw.decryptStepL .release params q sk ct.a) ct.b (List.range params.ell)).val =
      .ok ((List.range params.ell).map fun l => pvwPhase params rng e msg l) := by
    simp only [fold_val, Pvw.decryptStepL_val]; exact a5
  have e2 : (Lk.fold (Pvw.decryptStepL .release params q sk' ct'.a) ct'.b (List.range params.ell)).val =
      .ok ((List.range params.ell).map fun l => pvwPhase params rng' e' msg' l) := by
    simp only [fold_val, Pvw.decryptStepL_val]; exact b5
  have e3 := (Pvw.phasesL_sim params q sk sk' ct.a ct'.a (a4.trans b4.symm) (List.range params.ell) _ _ e1 e2).1
  unfold Pvw.decryptL
  rw [bind_trace_ok (show (Lk.lift (Modulus.new params.q)).val = .ok q from hq), bind_trace_ok (show (Lk.lift (Modulus.new params.q)).val = .ok q from hq),
    bind_trace_ok e1, bind_trace_ok e2, e3, Pvw.roundsL_trace h.two_le h.lt (hp rng e msg), Pvw.roundsL_trace h.two_le h.lt (hp rng' e' msg'),
    List.append_cancel_left_eq, List.append_cancel_left_eq, flatMap_division (by simp)]
  simp only [List.map_inj_left, List.mem_range]

/-! ### Examples -/

theorem Ex.two_keys : ∃ P sk sk', IsParams 8 17 Ex.mods 10 P ∧ IsKey P sk ∧ IsKey P sk' ∧ sk.coeffs.length = sk'.coeffs.length ∧ sk.coeffs ≠ sk'.coeffs := by
  obtain ⟨P, h⟩ := Ex.exists_params
  have hd : P.degree = 8 := by
    obtain ⟨K, ext, hN, hw, -⟩ := BfvP.params h
    rw [hw.deg, hN]
  exact ⟨P, ⟨P, [1, 0, -1]⟩, ⟨P, [0, 1, 1]⟩, h, ⟨rfl, by rw [hd]; simp, by simp⟩, ⟨rfl, by rw [hd]; simp, by simp⟩, rfl, by simp⟩

theorem Ex.const_tape (c : Nat) (hc : c < 10) : TapeAt Ex.mods 0 fun _ _ => c := fun k j hk => by
  have : ∀ k, k < (levelModuli Ex.mods 0).length → 10 < (levelModuli Ex.mods 0).getD k 1 := by decide
  exact hc.trans (this k hk)

/-- Two different keys and two different plaintexts: encryption and RGSW encryption. -/
example : ∃ P sk sk' ct ct' g g' tr tr', IsParams 8 17 Ex.mods 10 P ∧ sk.coeffs ≠ sk'.coeffs ∧
    sk.encryptL .release ⟨P, 0, .poly, [1, 2, 3]⟩ (fun _ _ => 5) (fun i => i % 1000) = ⟨.ok ct, tr⟩ ∧
    sk'.encryptL .release ⟨P, 0, .poly, [0, 16, 0]⟩ (fun _ _ => 6) (fun i => i % 999) = ⟨.ok ct', tr⟩ ∧
    RgswCt.encryptL .release sk ⟨P, 0, .poly, [1, 2, 3]⟩ (fun _ _ _ => 5) (fun _ _ _ => 4) (fun _ i => i % 1000) (fun _ _ => 3) = ⟨.ok g, tr'⟩ ∧
    RgswCt.encryptL .release sk' ⟨P, 0, .poly, [0, 16, 0]⟩ (fun _ _ _ => 6) (fun _ _ _ => 7) (fun _ i => i % 999) (fun _ _ => 1) = ⟨.ok g', tr'⟩ := by
  obtain ⟨P, sk, sk', h, hk, hk', hl, hne⟩ := Ex.two_keys
  obtain ⟨ct, ct', tr, h1, h2⟩ := c93_encrypt_plain h (by norm_num) (by norm_num) hk hk' hl (pt := ⟨P, 0, .poly, [1, 2, 3]⟩)
    (pt' := ⟨P, 0, .poly, [0, 16, 0]⟩) rfl rfl (by simp [Ex.mods]) rfl (by simp) rfl (by simp) (by simp) (Ex.const_tape 5 (by norm_num))
    (Ex.const_tape 6 (by norm_num)) (rng := fun i => i % 1000) (rng' := fun i => i % 999) (fun i => by omega) (fun i => by omega)
  obtain ⟨g, g', tr', h3, h4⟩ := c93_rgsw h (by norm_num) (by norm_num) hk hk' hl (pt := ⟨P, 0, .poly, [1, 2, 3]⟩)
    (pt' := ⟨P, 0, .poly, [0, 16, 0]⟩) rfl rfl (by simp [Ex.mods]) rfl (by simp) rfl (by simp) (by simp) (fun _ => Ex.const_tape 5 (by norm_num))
    (fun _ => Ex.const_tape 4 (by norm_num)) (fun _ => Ex.const_tape 6 (by norm_num)) (fun _ => Ex.const_tape 7 (by norm_num))
    (r0 := fun _ i => i % 1000) (r1 := fun _ _ => 3) (s0 := fun _ i => i % 999) (s1 := fun _ _ => 1)
    (fun _ i => by omega) (fun _ i => by norm_num) (fun _ i => by omega) (fun _ i => by norm_num)
  exact ⟨P, sk, sk', ct, ct', g, g', tr, tr', h, hne, h1, h2, h3, h4⟩

/-- Two different keys: key switching, Galois, relinearization and evaluation keys. -/
example : ∃ P sk sk' p p' c sub k1 k1' k2 k2' k3 k3' k4 k4' tr1 tr2 tr3 tr4, IsParams 8 17 Ex.mods 10 P ∧ sk.coeffs ≠ sk'.coeffs ∧
    P.qCtxs[0]? = some c ∧ Substitution.new .release c 5 = .ok sub ∧ PolyAt P 0 (0 : Rg 8) p ∧ PolyAt P 0 (1 : Rg 8) p' ∧
    Ksk.newL .release sk p 0 0 (fun _ _ _ => 5) (fun _ i => i % 1000) = ⟨.ok k1, tr1⟩ ∧
    Ksk.newL .release sk' p' 0 0 (fun _ _ _ => 6) (fun _ i => i % 999) = ⟨.ok k1', tr1⟩ ∧
    GaliosKey.newL .release sk sub 0 (fun _ _ _ => 5) (fun _ i => i % 1000) = ⟨.ok k2, tr2⟩ ∧
    GaliosKey.newL .release sk' sub 0 (fun _ _ _ => 6) (fun _ i => i % 999) = ⟨.ok k2', tr2⟩ ∧
    RelinearizationKey.newL .release sk 0 (fun _ _ _ => 5) (fun _ i => i % 1000) = ⟨.ok k3, tr3⟩ ∧
    RelinearizationKey.newL .release sk' 0 (fun _ _ _ => 6) (fun _ i => i % 999) = ⟨.ok k3', tr3⟩ ∧
    Evaluation.buildL .release sk P (fun _ _ _ _ => 5) (fun _ _ i => i % 1000) (fun _ _ _ => 5) (fun _ _ _ => 4) (fun _ _ => 1) (fun _ _ => 2) =
      ⟨.ok k4, tr4⟩ ∧
    Evaluation.buildL .release sk' P (fun _ _ _ _ => 6) (fun _ _ i => i % 999) (fun _ _ _ => 3) (fun _ _ _ => 7) (fun _ _ => 3) (fun _ _ => 4) =
      ⟨.ok k4', tr4⟩ := by
  obtain ⟨P, sk, sk', h, hk, hk', hl, hne⟩ := Ex.two_keys
  obtain ⟨p, hp⟩ := c33_exists_poly h (i := 0) (by simp [Ex.mods]) (0 : Rg 8)
  obtain ⟨p', hp'⟩ := c33_exists_poly h (i := 0) (by simp [Ex.mods]) (1 : Rg 8)
  have t5 : ∀ _ : Nat, TapeAt Ex.mods 0 fun _ _ => 5 := fun _ => Ex.const_tape 5 (by norm_num)
  have t6 : ∀ _ : Nat, TapeAt Ex.mods 0 fun _ _ => 6 := fun _ => Ex.const_tape 6 (by norm_num)
  have w : ∀ _ i : Nat, i % 1000 < 2 ^ 64 := fun _ i => by omega
  have w' : ∀ _ i : Nat, i % 999 < 2 ^ 64 := fun _ i => by omega
  have hc : ∃ c, P.qCtxs[0]? = some c := by
    obtain ⟨K, ext, hN, hw, e1, e2, e3⟩ := BfvP.params h
    obtain ⟨L, hL⟩ := hw.levels 0 (by simp [e2, Ex.mods])
    exact ⟨_, hL.q⟩
  obtain ⟨c, hc⟩ := hc
  obtain ⟨sub, -, hs, -⟩ := c37_galois h hk .release .release (by norm_num) (by norm_num) (by simp [Ex.mods]) (by norm_num) hc (e := 5) (by decide)
    (aTape := fun _ _ _ => 5) t5 (rng := fun _ i => i % 1000) w
  obtain ⟨k1, k1', tr1, h1, h1'⟩ := c93_ksk h (by norm_num) (by norm_num) hk hk' hl hp hp' t5 t6 w w'
  obtain ⟨k2, k2', tr2, h2, h2'⟩ := c93_galois_key h (by norm_num) (by norm_num) hk hk' hl (by simp [Ex.mods]) (by norm_num) hc (by decide) hs t5 t6 w w'
  obtain ⟨k3, k3', tr3, h3, h3'⟩ := c93_relin_key h (by norm_num) (by norm_num) hk hk' hl (i := 0) (by simp [Ex.mods]) t5 t6 w w'
  obtain ⟨k4, k4', tr4, h4, h4'⟩ := c93_build h (by norm_num) (by norm_num) hk hk' hl (by simp [Ex.mods]) (by norm_num)
    (fun _ => t5) (fun _ => t6) (fun _ => w) (fun _ => w') (a0 := fun _ _ _ => 5) (a1 := fun _ _ _ => 4) (b0 := fun _ _ _ => 3) (b1 := fun _ _ _ => 7)
    (fun _ => Ex.const_tape 5 (by norm_num)) (fun _ => Ex.const_tape 4 (by norm_num)) (fun _ => Ex.const_tape 3 (by norm_num))
    (fun _ => Ex.const_tape 7 (by norm_num)) (r0 := fun _ _ => 1) (r1 := fun _ _ => 2) (s0 := fun _ _ => 3) (s1 := fun _ _ => 4)
    (fun _ _ => by norm_num) (fun _ _ => by norm_num) (fun _ _ => by norm_num) (fun _ _ => by norm_num)
  exact ⟨P, sk, sk', p, p', c, sub, k1, k1', k2, k2', k3, k3', k4, k4', tr1, tr2, tr3, tr4, h, hne, hc, hs, hp, hp', h1, h1', h2, h2', h3, h3', h4, h4'⟩

/-- Two different queries to 4 * 2 * 2 rows. -/
example : ∃ v v' tr, Client.encodeL .release ⟨4, 2⟩ [1, 0, 1] 16 = ⟨.ok v, tr⟩ ∧ Client.encodeL .release ⟨4, 2⟩ [3, 1, 1] 16 = ⟨.ok v', tr⟩ ∧
    v.length = v'.length :=
  c93_query ⟨4, 2⟩ (i0 := 1) (i0' := 3) (rest := [0, 1]) (rest' := [1, 1]) (by norm_num) (by norm_num) (by simp) (by simp) rfl (by norm_num) (by norm_num) (by norm_num)

/-- The decryptions of the bits 1 and 0 under one PVW key leave different traces. -/
example : ∃ sk ct ct', (Pvw.decryptL .release sk ⟨2, 1, 2, 17, 2⟩ ct).trace ≠ (Pvw.decryptL .release sk ⟨2, 1, 2, 17, 2⟩ ct').trace := by
  have h : PvwChoices ⟨2, 1, 2, 17, 2⟩ (fun _ i => i % 17) (fun m i => (m + i) % 17) (fun _ _ => 0) (fun _ => 1) :=
    ⟨by decide, by decide, by decide, by decide, fun _ i => Nat.mod_lt _ (by norm_num), fun m i => Nat.mod_lt _ (by norm_num),
      fun _ _ => by norm_num, fun _ => by norm_num⟩
  obtain ⟨sk, sk', pk, pk', ct, ct', tr, tr', h1, h2, -, -, -, -, h3⟩ := c93_pvw h h (msg := [1]) (msg' := [0]) rfl rfl (by simp) (by simp)
  obtain rfl := Except.ok.inj (h1.symm.trans h2)
  refine ⟨sk, ct, ct', fun hh => ?_⟩
  exact absurd (h3.mp hh 0 (by norm_num)) (by decide +kernel)

end OnionPIR
