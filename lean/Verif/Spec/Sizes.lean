import Verif.Spec.Shape
/- How many 64-bit words of residues the objects of the protocol hold, which is what is stored and sent. -/
namespace OnionPIR.Spec

/-- Words of a polynomial. -/
def polyWords (p : Poly) : Nat := (p.coefficients.map List.length).sum

/-- Words of a ciphertext. -/
def ctWords (ct : BfvCipherText) : Nat := (ct.cts.map polyWords).sum

/-- Words of a key-switching key. -/
def kskWords (k : Ksk) : Nat := ((k.c0 ++ k.c1).map polyWords).sum

/-- Words of an RGSW ciphertext. -/
def rgswWords (g : RgswCt) : Nat := kskWords g.ksk0 + kskWords g.ksk1

/-- Words of evaluation keys. -/
def evalWords (ev : Evaluation) : Nat := (ev.gk.map fun x => kskWords x.2.gk).sum + rgswWords ev.skRgsw

end OnionPIR.Spec
