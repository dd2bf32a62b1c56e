/-!
# The options of `quadcoil` in its signature and in its documentation

`/repo/src/quadcoil/quadcoil.py` 19-61 (tolerances, static arguments), 63-150 (signature) and 151-265 (documentation). Numbers are
mantissa and power of ten; defaults that are Python objects are kept as text.
-/

namespace Verif

/-- A default value. -/
inductive Default where
  | required
  | none
  | bool (b : Bool)
  | num (mantissa : Int) (exponent : Int)
  | str (s : String)
  | strs (l : List String)
  | object (text : String)
  deriving DecidableEq

/-- One parameter of the signature. -/
structure Param where
  name : String
  default : Default

/-- `tol_default`, quadcoil.py 19. -/
def tolDefault : Default := .num 1 (-6)

/-- `tol_default_last`, quadcoil.py 20. -/
def tolDefaultLast : Default := .num 1 (-10)

/-- The signature of `quadcoil`, quadcoil.py 63-150. -/
def signature : List Param :=
  [⟨"nfp", .required⟩, ⟨"stellsym", .required⟩, ⟨"plasma_mpol", .required⟩, ⟨"plasma_ntor", .required⟩, ⟨"plasma_dofs", .required⟩,
   ⟨"net_poloidal_current_amperes", .required⟩, ⟨"net_toroidal_current_amperes", .num 0 0⟩, ⟨"mpol", .num 6 0⟩, ⟨"ntor", .num 4 0⟩,
   ⟨"quadpoints_phi", .none⟩, ⟨"quadpoints_theta", .none⟩, ⟨"phi_init", .none⟩, ⟨"phi_unit", .none⟩, ⟨"plasma_stellsym", .bool true⟩,
   ⟨"plasma_quadpoints_phi", .none⟩, ⟨"plasma_quadpoints_theta", .none⟩, ⟨"Bnormal_plasma", .none⟩, ⟨"plasma_coil_distance", .none⟩,
   ⟨"winding_surface_generator", .object "gen_winding_surface_arc"⟩, ⟨"winding_dofs", .none⟩, ⟨"winding_mpol", .num 6 0⟩,
   ⟨"winding_ntor", .num 5 0⟩, ⟨"winding_quadpoints_phi", .none⟩, ⟨"winding_quadpoints_theta", .none⟩, ⟨"winding_stellsym", .bool true⟩,
   ⟨"objective_name", .str "f_B"⟩, ⟨"objective_weight", .num 1 0⟩, ⟨"objective_unit", .none⟩, ⟨"constraint_name", .strs []⟩,
   ⟨"constraint_type", .strs []⟩, ⟨"constraint_unit", .strs []⟩, ⟨"constraint_value", .strs []⟩, ⟨"metric_name", .strs ["f_B", "f_K"]⟩,
   ⟨"value_only", .bool false⟩, ⟨"smoothing", .str "slack"⟩, ⟨"smoothing_params", .object "{'lse_epsilon': 1e-3}"⟩,
   ⟨"convex", .bool false⟩, ⟨"verbose", .num 0 0⟩, ⟨"merge_constraints", .bool false⟩, ⟨"c_init", .num 1 0⟩, ⟨"c_growth_rate", .num 2 0⟩,
   ⟨"xstop_outer", tolDefault⟩, ⟨"ctol_outer", tolDefault⟩, ⟨"fstop_inner", tolDefault⟩, ⟨"xstop_inner", tolDefault⟩,
   ⟨"gtol_inner", tolDefault⟩, ⟨"fstop_inner_last", .num 0 0⟩, ⟨"xstop_inner_last", tolDefaultLast⟩, ⟨"gtol_inner_last", tolDefaultLast⟩,
   ⟨"svtol", tolDefault⟩, ⟨"maxiter_tot", .num 1 4⟩, ⟨"maxiter_inner", .num 1 3⟩, ⟨"max_linesearch_steps", .num 2 1⟩,
   ⟨"gplus_mask", .object "gplus_hard"⟩, ⟨"implicit_linear_solver", .none⟩]

/-- `QUADCOIL_STATIC_ARGNAMES`, quadcoil.py 26-61. -/
def staticArgs : List String :=
  ["nfp", "stellsym", "mpol", "ntor", "plasma_mpol", "plasma_ntor", "plasma_stellsym", "winding_surface_generator", "winding_mpol",
   "winding_ntor", "winding_stellsym", "objective_name", "constraint_name", "constraint_type", "metric_name", "convex", "maxiter_tot",
   "maxiter_inner", "merge_constraints", "max_linesearch_steps", "gplus_mask", "implicit_linear_solver", "value_only", "verbose",
   "smoothing"]

/-- One entry of the documentation: the default if one is given, and whether the parameter is called static. -/
structure Doc where
  name : String
  default : Option Default
  static : Bool

/-- The documentation, quadcoil.py 156-264. A default given by two names at once is entered for both. `winding_dofs` and
`max_linesearch_steps` are documented without a default. The `default=()` of `constraint_value` and the `default=False` of `verbose` stand
for an empty array and for zero. -/
def docs : List Doc :=
  [⟨"nfp", some .required, true⟩, ⟨"stellsym", some .required, true⟩, ⟨"plasma_mpol", some .required, true⟩,
   ⟨"plasma_ntor", some .required, true⟩, ⟨"plasma_dofs", some .required, true⟩, ⟨"net_poloidal_current_amperes", some .required, false⟩,
   ⟨"net_toroidal_current_amperes", some (.num 0 0), false⟩, ⟨"mpol", some (.num 6 0), true⟩, ⟨"ntor", some (.num 4 0), true⟩,
   ⟨"quadpoints_phi", some .none, false⟩, ⟨"quadpoints_theta", some .none, false⟩, ⟨"phi_init", some .none, false⟩,
   ⟨"phi_unit", some .none, false⟩, ⟨"plasma_stellsym", some (.bool true), true⟩, ⟨"plasma_quadpoints_phi", some .none, false⟩,
   ⟨"plasma_quadpoints_theta", some .none, false⟩, ⟨"Bnormal_plasma", some .none, false⟩, ⟨"plasma_coil_distance", some .none, false⟩,
   ⟨"winding_surface_generator", some (.object "gen_winding_surface_atan"), true⟩, ⟨"winding_dofs", Option.none, false⟩,
   ⟨"winding_mpol", some (.num 6 0), true⟩, ⟨"winding_ntor", some (.num 5 0), true⟩, ⟨"winding_quadpoints_phi", some .none, false⟩,
   ⟨"winding_quadpoints_theta", some .none, false⟩, ⟨"winding_stellsym", some (.bool true), true⟩,
   ⟨"objective_name", some (.str "f_B_normalized_by_Bnormal_IG"), true⟩, ⟨"objective_weight", some .none, false⟩,
   ⟨"objective_unit", some .none, false⟩, ⟨"constraint_name", some (.strs []), true⟩, ⟨"constraint_type", some (.strs []), true⟩,
   ⟨"constraint_unit", some (.strs []), false⟩, ⟨"constraint_value", some (.strs []), false⟩,
   ⟨"metric_name", some (.strs ["f_B", "f_K"]), true⟩, ⟨"convex", some (.bool false), true⟩, ⟨"c_init", some (.num 1 0), false⟩,
   ⟨"c_growth_rate", some (.num 12 (-1)), false⟩, ⟨"xstop_outer", some (.num 1 (-7)), false⟩, ⟨"ctol_outer", some (.num 1 (-7)), false⟩,
   ⟨"fstop_inner", some (.num 1 (-7)), false⟩, ⟨"fstop_inner_last", some (.num 1 (-7)), false⟩, ⟨"xstop_inner", some (.num 0 0), false⟩,
   ⟨"xstop_inner_last", some (.num 0 0), false⟩, ⟨"gtol_inner", some (.num 1 (-1)), false⟩, ⟨"gtol_inner_last", some (.num 1 (-1)), false⟩,
   ⟨"svtol", some (.num 1 (-1)), false⟩, ⟨"maxiter_tot", some (.num 5 1), true⟩, ⟨"maxiter_inner", some (.num 5 2), true⟩,
   ⟨"maxiter_inner_last", some (.num 5 2), true⟩, ⟨"max_linesearch_steps", Option.none, true⟩,
   ⟨"gplus_mask", some (.object "gplus_hard"), true⟩, ⟨"implicit_linear_solver", some (.object "lineax.AutoLinearSolver(well_posed=True)"), true⟩, ⟨"value_only", some (.bool false), true⟩,
   ⟨"verbose", some (.num 0 0), true⟩]

end Verif
