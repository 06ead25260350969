import Verif.Induct
/-! Model of `flatten` (/repo/src/tarski/syntax/ops.py:65-80). -/
namespace Tarski

mutual
/-- Models `_flatten` (ops.py:74-80). -/
def flattenAux (c : Conn) : Formula → List Formula
  | .comp k d fs => if d = c then flattenAuxs c fs else [.comp k d fs]
  | .top => [.top]
  | .bot => [.bot]
  | .atom p ts => [.atom p ts]
  | .quant q vs f => [.quant q vs f]
/-- The `chain.from_iterable` of ops.py:80. -/
def flattenAuxs (c : Conn) : List Formula → List Formula
  | [] => []
  | f :: fs => flattenAux c f ++ flattenAuxs c fs
end

/-- Models `flatten` (ops.py:65-71). -/
def flatten : Formula → Formula
  | .comp k .and fs => .comp .tuple .and (flattenAux .and (.comp k .and fs))
  | .comp k .or fs => .comp .tuple .or (flattenAux .or (.comp k .or fs))
  | f => f

end Tarski
