import Verif.Model.Cost
/-
Not in the code: the corrected expansion (Model/Repair) stopped after `e` stages, for ciphertexts whose message has no coefficient at
position `2^e` or above. The server uses only the first results of an expansion (src/evaluations.rs:118, 127) but lets `unpack` compute all.
-/
namespace OnionPIR.Repair

/-- `unpack` after the call of `gen_x_pows` (src/evaluations.rs:258-299) with `2^e` for the degree in lines 261, 271, 273 and 297: the factor, the
number of stages and the length of the result; the exponents (line 274) keep the degree. -/
def unpackWithTo (pr : Profile) (e : Nat) (ev : Evaluation) (xPows : List Poly) (ct : BfvCipherText) : Res (List BfvCipherText) := do
  let ctx ← idx ct.params.qCtxs ct.level
  let inv ← unwrapR (modInverse (2 ^ e) ctx.rns.product)
  let cts ← mapR (fun c => c.mulBig pr inv) ct.cts
  let bits ← foldR (Evaluation.unpackStage pr ev xPows ct.params.degree) (List.replicate (2 ^ e) { ct with cts := cts }) (List.range e)
  rassert (bits.length = 2 ^ e)
  .ok bits

/-- The corrected `unpack`, stopped after `e` stages. -/
def unpackTo (pr : Profile) (e : Nat) (ev : Evaluation) (ct : BfvCipherText) : Res (List BfvCipherText) := do
  let ctx ← idx ct.params.qCtxs ct.level
  let xPows ← genXPows pr ct.params.degree ctx
  dassertEqR pr xPows.length (ilog2 64 pr ct.params.degree)
  unpackWithTo pr e ev xPows ct

/-- The corrected `decode` with expansions of `e` stages. -/
def decodeTo (pr : Profile) (e : Nat) (s : Server) (queryCts : List BfvCipherText) (evalKey : Evaluation) (params : BfvParameters) :
    Res (List BfvCipherText) := Server.decodeBy pr (dimensions pr s 64) (unpackTo pr e evalKey) s queryCts evalKey params

/-- `unpackWithTo` with counters. -/
def unpackWithToC (pr : Profile) (e : Nat) (ev : Evaluation) (xPows : List Poly) (ct : BfvCipherText) : Cw (List BfvCipherText) := do
  let ctx ← Cw.lift (idx ct.params.qCtxs ct.level)
  let inv ← Cw.lift (unwrapR (modInverse (2 ^ e) ctx.rns.product))
  let cts ← Cw.map (fun c => c.mulBigC pr inv) ct.cts
  let bits ← Cw.fold (Evaluation.unpackStageC pr ev xPows ct.params.degree) (List.replicate (2 ^ e) { ct with cts := cts }) (List.range e)
  Cw.lift (rassert (bits.length = 2 ^ e))
  pure bits

/-- `unpackTo` with counters. -/
def unpackToC (pr : Profile) (e : Nat) (ev : Evaluation) (ct : BfvCipherText) : Cw (List BfvCipherText) := do
  let ctx ← Cw.lift (idx ct.params.qCtxs ct.level)
  let xPows ← Cw.lift (genXPows pr ct.params.degree ctx)
  Cw.lift (dassertEqR pr xPows.length (ilog2 64 pr ct.params.degree))
  unpackWithToC pr e ev xPows ct

/-- `decodeTo` with counters. -/
def decodeToC (pr : Profile) (e : Nat) (s : Server) (queryCts : List BfvCipherText) (evalKey : Evaluation) (params : BfvParameters) :
    Cw (List BfvCipherText) := Server.decodeByC pr (dimensions pr s 64) (unpackToC pr e evalKey) s queryCts evalKey params

end OnionPIR.Repair
