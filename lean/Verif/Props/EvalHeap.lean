import Verif.Lemmas.EvalHeap
import Verif.Props.Polynomial

/-! # C150: evaluating a polynomial does not modify the inputs

`callHeap m e args kwargs h` is `Poly.__call__` for a polynomial with expression `e`, where `h` holds the values of the
numpy arrays of the caller: the first component says what the arrays hold after the call. -/

namespace Cyjax

open Cyjax.Polynomial Cyjax.Util

/-- C150, the part that holds, first case: if no input is a mutable array (python numbers, jax arrays, one-dimensional numpy
arrays), a call changes nothing, and returns the value (or error) of the call on the numbers. -/
theorem C150_immutable_partial (m : Meta) (e : Expr) (args : List HVal) (kwargs : List (List Char × HVal))
    (ha : ∀ a ∈ args, a.Imm) (hk : ∀ p ∈ kwargs, p.2.Imm) (h : Heap ℂ) :
    (callHeap m e args kwargs h).1 = h ∧ (callHeap m e args kwargs h).2.map (Obj.read h) =
      callNum m e (args.map (HVal.read h)) (kwargs.map fun p => (p.1, p.2.read h)) :=
  callHeap_sim True h m e (safe_true e) args kwargs fun _ => ⟨ha, hk⟩

/-- C150, the part that holds, second case: for any inputs, if no product in the expression begins with a variable or a
parameter, a call changes nothing and returns the value (or error) of the call on the numbers. -/
theorem C150_numbers_first_partial (m : Meta) (e : Expr) (he : e.safe False) (args : List HVal)
    (kwargs : List (List Char × HVal)) (h : Heap ℂ) :
    (callHeap m e args kwargs h).1 = h ∧ (callHeap m e args kwargs h).2.map (Obj.read h) =
      callNum m e (args.map (HVal.read h)) (kwargs.map fun p => (p.1, p.2.read h)) :=
  callHeap_sim False h m e he args kwargs False.elim

/-- In particular for a polynomial without parameters over the complex numbers, as `from_sympy` makes it: each term begins
with its coefficient. -/
theorem C150_no_parameters_partial (P : PolyObj) (_ : P.md.params = []) (args : List HVal)
    (kwargs : List (List Char × HVal)) (h : Heap ℂ) :
    (callHeap P.md (polyExpr P.poly) args kwargs h).1 = h ∧
      (callHeap P.md (polyExpr P.poly) args kwargs h).2.map (Obj.read h) =
        P.call (args.map (HVal.read h)) (kwargs.map fun p => (p.1, p.2.read h)) :=
  C150_numbers_first_partial P.md _ (polyExpr_safe False P.poly) args kwargs h

namespace EvalHeapExample

def m : Meta := ⟨[("x".toList, none), ("y".toList, none)], ["psi".toList]⟩

/-- `1.0*psi + 1.0`. -/
def a : Expr := .add [.mul [.float 1, .sym "psi".toList], .float 1]

/-- The expression of `from_sympy((psi + 1)*x + (psi + 1)*x*y, 'x', 'y')`: sympy keeps the coefficient of a monomial together
and puts symbols before sums. -/
def e : Expr := .add [.mul [.sym "x".toList, a], .mul [.sym "x".toList, .sym "y".toList, a]]

/-- The same with the terms in the other order. -/
def e' : Expr := .add [.mul [.sym "x".toList, .sym "y".toList, a], .mul [.sym "x".toList, a]]

/-- `x` is a numpy array `np.array(3.)`, `y = 5`, `params = [1]`. -/
def args : List HVal := [.scalar (.ref 0), .scalar (.imm 5), .vec [.imm 1]]

theorem binding : sortVarArgs HVal.len m.names m.params.length args [] =
    .ok ([.scalar (.ref 0), .scalar (.imm 5)], some (.vec [.imm 1])) := by
  simp [sortVarArgs, m, Meta.names, args, dictGet, kwVariables, HVal.len]

theorem symX : compileSymH m "x".toList = .ok (readScalarH "x".toList) := by
  unfold compileSymH
  rw [splitSubscript_good _ (by decide)]
  simp [m, Meta.names, dictGet]

theorem symY : compileSymH m "y".toList = .ok (readScalarH "y".toList) := by
  unfold compileSymH
  rw [splitSubscript_good _ (by decide)]
  simp [m, Meta.names, dictGet]

theorem symPsi : compileSymH m "psi".toList = .ok (readParamH 0) := by
  unfold compileSymH
  rw [splitSubscript_good _ (by decide)]
  simp [m, Meta.names, dictGet, dictIndex]

theorem result (h : Heap ℂ) (h0 : h 0 = 3) :
    callHeap m e args [] h = (Function.update h 0 60, .ok (.imm 66)) ∧
      callHeap m e' args [] h = (Function.update h 0 60, .ok (.imm 90)) := by
  constructor
  · unfold callHeap
    rw [binding]
    simp only [e, a, compileExprH, compileListH, symX, symY, symPsi]
    simp [sumH, prodH, readScalarH, readParamH, m, Meta.names,
      dictGet, HVal.entries, imul, Obj.read, h0]
    norm_num
  · unfold callHeap
    rw [binding]
    simp only [e', a, compileExprH, compileListH, symX, symY, symPsi]
    simp [sumH, prodH, readScalarH, readParamH, m, Meta.names,
      dictGet, HVal.entries, imul, Obj.read, h0]
    norm_num

/-- Both cases apply: the same expression with a number for `x`, and `2.0*x*y` with the array. -/
example (h : Heap ℂ) : (callHeap m e [.scalar (.imm 3), .scalar (.imm 5), .vec [.imm 1]] [] h).1 = h :=
  (C150_immutable_partial m e _ [] (by simp [HVal.Imm, IsImm]) (by simp) h).1

example (h : Heap ℂ) :
    (callHeap m (.mul [.float 2, .sym "x".toList, .sym "y".toList]) args [] h).1 = h :=
  (C150_numbers_first_partial m _ (by
    refine ⟨by simp [Expr.safeList, Expr.safe], ?_⟩
    intro e e' es he
    simp only [List.cons.injEq] at he
    rw [← he.1]
    trivial) args [] h).1

end EvalHeapExample

open EvalHeapExample in
/-- C150 is violated: `(psi + 1)*x + (psi + 1)*x*y` at `psi = 1`, `y = 5` and `x` a numpy array holding `3` should be `36` and
leave `x` alone. Depending on the order of the terms the call returns `66` or `90`, and `x` holds `60` afterwards. -/
theorem C150_modified_violated (h : Heap ℂ) (h0 : h 0 = 3) :
    (∀ ρ : Sym → ℂ, e.value ρ = (ρ "psi".toList + 1) * ρ "x".toList + (ρ "psi".toList + 1) * ρ "x".toList * ρ "y".toList) ∧
      (callHeap m e args [] h).1 0 = 60 ∧ (callHeap m e' args [] h).1 0 = 60 ∧
      (callHeap m e args [] h).2 = .ok (.imm 66) ∧ (callHeap m e' args [] h).2 = .ok (.imm 90) := by
  obtain ⟨r1, r2⟩ := result h h0
  refine ⟨?_, by rw [r1]; simp, by rw [r2]; simp, by rw [r1], by rw [r2]⟩
  intro ρ
  simp [e, a, Expr.value, Expr.values]
  ring

end Cyjax
