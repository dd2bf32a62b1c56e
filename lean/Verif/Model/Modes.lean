import Mathlib.Analysis.SpecialFunctions.Trigonometric.Basic

/-!
# Fourier mode tables

`make_mn_helper` and `cp_ndofs` of `/repo/src/quadcoil/quadcoil_params.py` and `make_rzfourier_mc_ms_nc_ns` of
`/repo/src/quadcoil/surfacerzfourier_jax.py`.
-/

namespace Verif

/-- `jnp.arange(a, b)` for integers: `a, a+1, ..., b-1`. -/
def arange (a b : ℤ) : List ℤ := (List.range (b - a).toNat).map fun k : ℕ => a + (k : ℤ)

/-- `n2d.flatten()` where `n2d, m2d = jnp.meshgrid(n1d, m1d)`: row `i`, column `j` of `n2d` is `n1d[j]`. -/
def meshN (n1d m1d : List ℤ) : List ℤ := m1d.flatMap fun _ => n1d

/-- `m2d.flatten()`: row `i`, column `j` of `m2d` is `m1d[i]`. -/
def meshM (n1d m1d : List ℤ) : List ℤ := m1d.flatMap fun m => n1d.map fun _ => m

/-- `make_mn_helper`, quadcoil_params.py 227-240. Returns the arrays `(m, n)`. -/
def makeMn (mpol ntor : ℕ) (stellsym : Bool) : List ℤ × List ℤ :=
  let m1d := arange 0 (mpol + 1)
  let n1d := arange (-ntor) (ntor + 1)
  let m0 := (meshM n1d m1d).drop ntor
  let n0 := (meshN n1d m1d).drop ntor
  let m := m0.drop 1
  let n := n0.drop 1
  if stellsym then (m, n)
  else
    let mFirst := m ++ [0]
    let nFirst := n ++ [0]
    (mFirst ++ m, nFirst ++ n)

/-- `cp_ndofs`, quadcoil_params.py 434-442. Returns `(ndofs, ndofs_half)`. -/
def cpNdofs (stellsym : Bool) (mpol ntor : ℕ) : ℕ × ℕ :=
  let ndofs := 2 * mpol * ntor + mpol + ntor
  if stellsym then (ndofs, ndofs)
  else (2 * ndofs + 1, ndofs)

/-- `jnp.repeat(l, k)`: every element `k` times in a row. -/
def repeatEach (l : List ℤ) (k : ℕ) : List ℤ := l.flatMap fun a => List.replicate k a

/-- `jnp.tile(l, k)`: the whole list `k` times in a row. -/
def tile (l : List ℤ) (k : ℕ) : List ℤ := (List.replicate k l).flatten

/-- `ms`, surfacerzfourier_jax.py 378-381. -/
def surfMs (mpol ntor : ℕ) : List ℤ :=
  List.replicate ntor 0 ++ repeatEach (arange 1 (mpol + 1)) (ntor * 2 + 1)

/-- `ns`, surfacerzfourier_jax.py 382-385. -/
def surfNs (mpol ntor : ℕ) : List ℤ :=
  arange 1 (ntor + 1) ++ tile (arange (-ntor) (ntor + 1)) mpol

/-- `mc`, surfacerzfourier_jax.py 386. -/
def surfMc (mpol ntor : ℕ) : List ℤ := 0 :: surfMs mpol ntor

/-- `nc`, surfacerzfourier_jax.py 387. -/
def surfNc (mpol ntor : ℕ) : List ℤ := 0 :: surfNs mpol ntor

end Verif
