import Verif.Parse.Grammar

/-!
# The parsers of the configuration section

Code: /repo/core/include/bertini2/io/parsing/settings_parsers.hpp (`FillConfigStruct`, lines 51-70) and the parsers
`ConfigSettingParser` in settings_parsers/tracking.hpp, settings_parsers/endgames.hpp, settings_parsers/algorithm.hpp.
All of them have the form

    root = ((s1[..] ^ s2[..] ^ …) >> -no_setting) | no_setting
    si = *(char_ - all_names) >> (no_case[name_i] >> ':') >> value >> ';'
    all_names = (no_case[name_1] >> ':') | …
    no_setting = *(char_ - all_names)

with the skipper `ascii::space`.

Simplifications: a configuration struct is a map from its members to values; real values are exact decimals (no rounding to
`double`, no overflow of `double`).
-/

namespace B2.Parse.Config

open B2.Parse

/-- Lower case letter of a letter (ASCII). -/
def lowerC (c : Char) : Char := if 'A' ≤ c ∧ c ≤ 'Z' then Char.ofNat (c.toNat + 32) else c

/-- Lower case text. -/
def lower (s : List Char) : List Char := s.map lowerC

/-- `no_case[name]` without the preceding skip: the text starts with the name, whatever the case of its letters. -/
def eatNoCase : List Char → List Char → Option (List Char)
  | [], s => some s
  | _ :: _, [] => none
  | k :: ks, d :: r => if lowerC d = k then eatNoCase ks r else none

/-- `no_case[name] >> ':'`. -/
def nameColon (nm s : List Char) : Option (List Char) :=
  match eatNoCase nm (skip s) with
  | some r => eat ':' r
  | none => none

/-- `all_names_` matches here, e.g. tracking.hpp 308-309. -/
def atName (names : List (List Char)) (s : List Char) : Bool := names.any fun nm => (nameColon nm s).isSome

/-- `no_case[name]` matches here. -/
def atWord (nm s : List Char) : Bool := (eatNoCase nm (skip s)).isSome

theorem skip_cons_length {s : List Char} {c : Char} {r : List Char} (h : skip s = c :: r) : r.length < s.length := by
  have h1 : (skip s).length ≤ s.length := by
    unfold skip
    exact (List.dropWhile_sublist _).length_le
  rw [h] at h1
  simp at h1
  omega

/-- `*(char_ - stop)`: the characters taken (white space is skipped, not taken) and the rest of the text. -/
def scan (stop : List Char → Bool) (s : List Char) : List Char × List Char :=
  if stop s then ([], s)
  else
    match _h : skip s with
    | [] => ([], [])
    | c :: r => (c :: (scan stop r).1, (scan stop r).2)
termination_by s.length
decreasing_by all_goals exact skip_cons_length _h

/-- Values of members of configuration structs; `undef` is an uninitialised member. -/
inductive Value
  | undef
  | nat (n : ℕ)
  | int (n : ℤ)
  | bool (b : Bool)
  | num (q : ℚ)
  | enum (name : String)
  | str (s : List Char)
  deriving DecidableEq

/-- Outcome of a rule: no match; exception; match with a value and the rest of the text. -/
inductive V (α : Type)
  | fail
  | err
  | ok (v : α) (rest : List Char)

/-- `qi::uint_`: decimal digits, at most `2^32 - 1`. -/
def uintP (s : List Char) : V ℕ :=
  let ds := (skip s).takeWhile isDigit
  if ds = [] then .fail
  else if 2 ^ 32 ≤ natOf ds then .fail
  else .ok (natOf ds) ((skip s).dropWhile isDigit)

/-- Sign of `qi::int_`. -/
def signP : List Char → Bool × List Char
  | '-' :: r => (true, r)
  | '+' :: r => (false, r)
  | s => (false, s)

/-- `qi::int_`: optional sign, decimal digits, in the range of `int`. -/
def intP (s : List Char) : V ℤ :=
  let m := signP (skip s)
  let ds := m.2.takeWhile isDigit
  let n : ℤ := if m.1 then -(natOf ds : ℤ) else natOf ds
  if ds = [] then .fail
  else if n < -2 ^ 31 ∨ 2 ^ 31 ≤ n then .fail
  else .ok n (m.2.dropWhile isDigit)

/-- `integer_string_`, number_rules.hpp 86-91, 131-137, then `boost::lexical_cast<double>` (num_traits.hpp 73-76), which
throws for two signs. -/
def intStr (s : List Char) : V ℚ :=
  let m := optMinus s
  let m' := optMinus m.2
  let ds := m'.2.takeWhile isDigit
  let r := m'.2.dropWhile isDigit
  if ds = [] then .fail
  else if m.1 ∧ m'.1 then .err
  else
    let v : ℚ := (if m.1 ∨ m'.1 then -1 else 1) * (natOf ds : ℚ)
    match expo r with
    | some (x, r') => .ok (v * (10 : ℚ) ^ x) r'
    | none => .ok v r

/-- `number_string_`, number_rules.hpp 80-84. -/
def numP (s : List Char) : V ℚ :=
  match longNum (skip s) with
  | some (v, r) => .ok v r
  | none => intStr (skip s)

/-- `rational`, number_rules.hpp 155-159: a number, or else a number, a slash and a number.  (The value of the quotient is
what `lexical_cast` makes of `p/q`: an exception.) -/
def ratP (s : List Char) : V ℚ :=
  match numP s with
  | .ok v r => .ok v r
  | .err => .err
  | .fail =>
    match numP s with
    | .ok _ ('/' :: r) =>
      match numP r with
      | .ok _ _ => .err
      | .fail => .fail
      | .err => .err
    | _ => .fail

/-- `qi::symbols`: the longest key that the text starts with. -/
def longestKey : List (List Char × String) → List Char → Option (List Char × String)
  | [], _ => none
  | (k, n) :: T, s =>
    if (eatStr k s).isSome then
      match longestKey T s with
      | some (k', n') => if k.length < k'.length then some (k', n') else some (k, n)
      | none => some (k, n)
    else longestKey T s

/-- A symbol. -/
def symP (T : List (List Char × String)) (s : List Char) : V String :=
  match longestKey T (skip s) with
  | some (k, n) => .ok n ((skip s).drop k.length)
  | none => .fail

/-- Characters of a variable name after the letters, algorithm.hpp 250: `qi::alnum | qi::char_("[]_")`. -/
def isNameChar (c : Char) : Bool := isAlnum c || c = '[' || c = ']' || c = '_'

/-- `*p` for a set of characters, with skipping. -/
def chars (p : Char → Bool) (s : List Char) : List Char × List Char :=
  match _h : skip s with
  | [] => ([], s)
  | c :: r => if p c then (c :: (chars p r).1, (chars p r).2) else ([], s)
termination_by s.length
decreasing_by all_goals exact skip_cons_length _h

/-- `valid_variable_name_`, algorithm.hpp 250 (with skipping between the characters). -/
def varP (s : List Char) : V (List Char) :=
  let a := chars isAlpha s
  if a.1 = [] then .fail
  else .ok (a.1 ++ (chars isNameChar a.2).1) (chars isNameChar a.2).2

/-- Kinds of values: the rule after the colon and the conversion in the semantic action. -/
inductive Kind
  | uint
  | int
  /-- `int_` stored in an `unsigned` member -/
  | intU
  /-- `int_`, `static_cast<bool>` -/
  | bool
  | num
  | rational
  | sym (T : List (List Char × String))
  | var
  deriving DecidableEq

/-- Change of the value of a result. -/
def V.map {α β : Type} (f : α → β) : V α → V β
  | .fail => .fail
  | .err => .err
  | .ok v r => .ok (f v) r

/-- The value after the colon.  `junk` is what `*(char_ - all_names_)` took before the name: the attribute of
`path_variable_name_` (algorithm.hpp 254) is the whole sequence, so these characters become part of the name. -/
def parseVal (k : Kind) (junk s : List Char) : V Value :=
  match k with
  | .uint => (uintP s).map .nat
  | .int => (intP s).map .int
  | .intU => (intP s).map fun n => .nat (n % 2 ^ 32).toNat
  | .bool => (intP s).map fun n => .bool (decide (n ≠ 0))
  | .num => (numP s).map .num
  | .rational => (ratP s).map .num
  | .sym T => (symP T s).map .enum
  | .var => (varP s).map fun n => .str (junk ++ n)

/-- A setting: name in the file (in lower case), member of the struct, kind of value. -/
structure Setting where
  name : List Char
  field : String
  kind : Kind
  deriving DecidableEq

/-- A configuration struct. -/
abbrev Conf := String → Value

/-- A parser: its settings, where `*(char_ - …)` stops in the rules of the settings and in `no_setting_`, and the values of a
default constructed struct. -/
structure Schema where
  sets : List Setting
  stopTry : List Char → Bool
  stopEnd : List Char → Bool
  dflt : Conf

/-- The rule of one setting, e.g. tracking.hpp 312-316. -/
def rule (sch : Schema) (st : Setting) (s : List Char) : V Value :=
  match nameColon st.name (scan sch.stopTry s).2 with
  | none => .fail
  | some r =>
    match parseVal st.kind (scan sch.stopTry s).1 r with
    | .fail => .fail
    | .err => .err
    | .ok v r' =>
      match eat ';' r' with
      | some r'' => .ok v r''
      | none => .fail

/-- One pass of the permutation operator `^` (boost/spirit/home/qi/operator/permutation.hpp) over the settings not taken
yet: every one is tried in turn.  `used` holds the names of the settings taken.  `none` is an exception; otherwise whether
something matched, and the new state. -/
def pass (sch : Schema) : List Setting → List (List Char) → Conf → List Char →
    Option (Bool × List (List Char) × Conf × List Char)
  | [], used, a, s => some (false, used, a, s)
  | st :: L, used, a, s =>
    if st.name ∈ used then pass sch L used a s
    else
      match rule sch st s with
      | .err => none
      | .fail => pass sch L used a s
      | .ok v s' =>
        match pass sch L (st.name :: used) (Function.update a st.field v) s' with
        | none => none
        | some (_, x) => some (true, x)

/-- Passes until nothing matches.  There are at most as many successful passes as settings. -/
def passes (sch : Schema) : ℕ → List (List Char) → Conf → List Char → Option (Conf × List Char)
  | 0, _, a, s => some (a, s)
  | n + 1, used, a, s =>
    match pass sch sch.sets used a s with
    | none => none
    | some (false, _, a', s') => some (a', s')
    | some (true, used', a', s') => passes sch n used' a' s'

/-- `FillConfigStruct`, settings_parsers.hpp 58-70; `none` is an exception. -/
def fill (sch : Schema) (s : List Char) : Option Conf :=
  match passes sch (sch.sets.length + 1) [] sch.dflt s with
  | none => none
  | some (a, s') => if skip (scan sch.stopEnd s').2 = [] then some a else none

/-- A parser whose rules all stop at `all_names_`. -/
def regular (sets : List Setting) (dflt : Conf) : Schema :=
  ⟨sets, atName (sets.map (·.name)), atName (sets.map (·.name)), dflt⟩

/-- Struct from a list of members and values. -/
def conf (l : List (String × Value)) : Conf := fun f => ((l.find? fun p => p.1 = f).map (·.2)).getD .undef

/-- `SteppingConfig`: tracking.hpp 246-378 (parser), trackers/config.hpp 75-92 (defaults). -/
def stepping : Schema := regular
  [⟨"maxstepsize".toList, "max_step_size", .rational⟩, ⟨"stepsuccessfactor".toList, "step_size_success_factor", .rational⟩,
   ⟨"stepfailfactor".toList, "step_size_fail_factor", .rational⟩,
   ⟨"stepsforincrease".toList, "consecutive_successful_steps_before_stepsize_increase", .uint⟩,
   ⟨"maxnumbersteps".toList, "max_num_steps", .uint⟩]
  (conf [("initial_step_size", .num (1 / 10)), ("max_step_size", .num (1 / 10)), ("min_step_size", .num (1 / 10 ^ 100)),
    ("step_size_success_factor", .num 2), ("step_size_fail_factor", .num (1 / 2)),
    ("consecutive_successful_steps_before_stepsize_increase", .nat 5), ("min_num_steps", .nat 1),
    ("max_num_steps", .nat 100000), ("frequency_of_CN_estimation", .nat 1)])

/-- `AdaptiveMultiplePrecisionConfig`: tracking.hpp 522-697, trackers/config.hpp 153-222. -/
def amp : Schema := regular
  [⟨"coefficientbound".toList, "coefficient_bound", .num⟩, ⟨"degreebound".toList, "degree_bound", .num⟩,
   ⟨"epsilon".toList, "epsilon", .num⟩, ⟨"phi".toList, "Phi", .num⟩, ⟨"psi".toList, "Psi", .num⟩,
   ⟨"ampsafetydigits1".toList, "safety_digits_1", .int⟩, ⟨"ampsafetydigits2".toList, "safety_digits_2", .int⟩,
   ⟨"ampmaxprec".toList, "maximum_precision", .uint⟩,
   ⟨"maxstepsprecisiondecrease".toList, "consecutive_successful_steps_before_precision_decrease", .uint⟩,
   ⟨"maxnumprecdecreases".toList, "max_num_precision_decreases", .uint⟩]
  (conf [("coefficient_bound", .num 1000), ("degree_bound", .num 5), ("safety_digits_1", .int 1),
    ("safety_digits_2", .int 1), ("maximum_precision", .nat 300),
    ("consecutive_successful_steps_before_precision_decrease", .nat 10), ("max_num_precision_decreases", .nat 10)])

/-- `SecurityConfig`: endgames.hpp 46-136, endgames/config.hpp 96-100. -/
def security : Schema := regular
  [⟨"securitylevel".toList, "level", .int⟩, ⟨"securitymaxnorm".toList, "max_norm", .num⟩]
  (conf [("level", .int 0), ("max_norm", .num 10000)])

/-- `EndgameConfig`: endgames.hpp 143-248, endgames/config.hpp 103-115. -/
def endgame : Schema := regular
  [⟨"samplefactor".toList, "sample_factor", .rational⟩, ⟨"nbhdradius".toList, "min_track_time", .num⟩,
   ⟨"numsamplepoints".toList, "num_sample_points", .uint⟩]
  (conf [("sample_point_refinement_factor", .num (1 / 100)), ("num_sample_points", .nat 3),
    ("min_track_time", .num (1 / 10 ^ 100)), ("sample_factor", .num (1 / 2)), ("max_num_newton_iterations", .nat 15),
    ("final_tolerance", .num (1 / 10 ^ 11))])

/-- `PowerSeriesConfig`: endgames.hpp 255-332, endgames/config.hpp 118-122. -/
def powerSeries : Schema := regular [⟨"maxcyclenum".toList, "max_cycle_number", .uint⟩]
  (conf [("max_cycle_number", .nat 6), ("cycle_number_amplification", .nat 5)])

/-- `CauchyConfig`: endgames.hpp 339-427, endgames/config.hpp 125-135. -/
def cauchy : Schema := regular
  [⟨"cycletimecutoff".toList, "cycle_cutoff_time", .num⟩, ⟨"ratiotimecutoff".toList, "ratio_cutoff_time", .num⟩]
  (conf [("cycle_cutoff_time", .num (1 / 10 ^ 8)), ("ratio_cutoff_time", .num (1 / 10 ^ 14)),
    ("minimum_for_c_over_k_stabilization", .num (3 / 4)), ("num_needed_for_stabilization", .nat 3),
    ("maximum_cauchy_ratio", .num (1 / 2)), ("fail_safe_maximum_cycle_number", .nat 250)])

/-- `TrackBackConfig`: endgames.hpp 433-525, endgames/config.hpp 139-144. -/
def trackBack : Schema := regular
  [⟨"mincycletrackback".toList, "minimum_cycle", .uint⟩, ⟨"junkremovaltrackback".toList, "junk_removal_test", .bool⟩,
   ⟨"maxldtdepth".toList, "max_depth_LDT", .uint⟩]
  (conf [("minimum_cycle", .nat 4), ("junk_removal_test", .bool true), ("max_depth_LDT", .nat 3)])

/-- `TolerancesConfig`: algorithm.hpp 45-168, nag_algorithms/common/config.hpp 59-69. -/
def tolerances : Schema := regular
  [⟨"tracktolbeforeeg".toList, "newton_before_endgame", .num⟩, ⟨"tracktolduringeg".toList, "newton_during_endgame", .num⟩,
   ⟨"finaltol".toList, "final_tolerance", .num⟩, ⟨"pathtruncationthreshold".toList, "path_truncation_threshold", .num⟩]
  (conf [("newton_before_endgame", .num (1 / 10 ^ 5)), ("newton_during_endgame", .num (1 / 10 ^ 6)),
    ("final_tolerance", .num (1 / 10 ^ 11)), ("path_truncation_threshold", .num 100000)])

/-- `ZeroDimConfig`: algorithm.hpp 175-312, nag_algorithms/common/config.hpp 131-141. -/
def zeroDim : Schema := regular
  [⟨"initialprec".toList, "initial_ambient_precision", .intU⟩, ⟨"pathvarname".toList, "path_variable_name", .var⟩,
   ⟨"maxcrossedpathresolves".toList, "max_num_crossed_path_resolve_attempts", .intU⟩,
   ⟨"starttime".toList, "start_time", .num⟩, ⟨"endgamebdry".toList, "endgame_boundary", .num⟩,
   ⟨"targettime".toList, "target_time", .num⟩]
  (conf [("initial_ambient_precision", .nat 16), ("max_num_crossed_path_resolve_attempts", .nat 2), ("start_time", .num 1),
    ("endgame_boundary", .num (1 / 10)), ("target_time", .num 0),
    ("path_variable_name", .str "ZERO_DIM_PATH_VARIABLE".toList)])

/-- `MidPathConfig`: algorithm.hpp 319-396, nag_algorithms/common/config.hpp 72-77. -/
def midPath : Schema := regular [⟨"midpathtol".toList, "same_point_tolerance", .num⟩]
  (conf [("same_point_tolerance", .num (1 / 10 ^ 5))])

/-- `AutoRetrackConfig`: algorithm.hpp 403-480, nag_algorithms/common/config.hpp 81-86. -/
def autoRetrack : Schema := regular [⟨"retracktolfactor".toList, "midpath_decrease_tolerance_factor", .num⟩]
  (conf [("midpath_decrease_tolerance_factor", .num (1 / 2))])

/-- `SharpeningConfig`: algorithm.hpp 487-590, nag_algorithms/common/config.hpp 90-101.  `sharpendigits` has no initial
value; the default of `function_residual_tolerance` is the `dummy_precision` 1e-12 of Eigen for `double`. -/
def sharpening : Schema := regular
  [⟨"sharpendigits".toList, "sharpendigits", .uint⟩, ⟨"functiontolerance".toList, "function_residual_tolerance", .num⟩,
   ⟨"ratiotolerance".toList, "ratio_tolerance", .num⟩]
  (conf [("function_residual_tolerance", .num (1 / 10 ^ 12)), ("ratio_tolerance", .num (99 / 100))])

/-- `RegenerationConfig`: algorithm.hpp 597-731, nag_algorithms/common/config.hpp 105-116.  The three tolerances have no
initial value. -/
def regeneration : Schema := regular
  [⟨"regenremoveinf".toList, "remove_infinite_endpoints", .bool⟩,
   ⟨"regenhigherdimtest".toList, "higher_dimension_check", .bool⟩, ⟨"regenstartlevel".toList, "start_level", .intU⟩,
   ⟨"slicetolbeforeeg".toList, "newton_before_endgame", .num⟩, ⟨"slicetolduringeg".toList, "newton_during_endgame", .num⟩,
   ⟨"slicefinaltol".toList, "final_tolerance", .num⟩]
  (conf [("remove_infinite_endpoints", .bool true), ("higher_dimension_check", .bool true), ("start_level", .nat 0)])

/-- `PostProcessingConfig`: algorithm.hpp 738-842, nag_algorithms/common/config.hpp 120-128. -/
def postProcessing : Schema := regular
  [⟨"imagthreshold".toList, "real_threshold", .num⟩, ⟨"endpointfinitethreshold".toList, "endpoint_finite_threshold", .num⟩,
   ⟨"endpointsamethreshold".toList, "same_point_tolerance", .num⟩]
  (conf [("real_threshold", .num (1 / 10 ^ 8)), ("endpoint_finite_threshold", .num (1 / 10 ^ 5)),
    ("same_point_tolerance", .num (1 / 10 ^ 10))])

/-- `NewtonConfig`: tracking.hpp 386-457, trackers/config.hpp 96-100; the rule of the setting stops at the name even
without a colon. -/
def newton : Schema where
  sets := [⟨"maxnewtonits".toList, "max_num_newton_iterations", .uint⟩]
  stopTry := atWord "maxnewtonits".toList
  stopEnd := atName ["maxnewtonits".toList]
  dflt := conf [("max_num_newton_iterations", .nat 2), ("min_num_newton_iterations", .nat 1)]

/-- `PrecisionType`: tracking.hpp 68-138; `no_setting_` stops at the literal `mptype:`.  The only member is the value
itself. -/
def precisionType : Schema where
  sets := [⟨"mptype".toList, "", .sym [("0".toList, "Fixed"), ("1".toList, "Adaptive"), ("2".toList, "Adaptive")]⟩]
  stopTry := atName ["mptype".toList]
  stopEnd := atWord "mptype:".toList
  dflt := conf [("", .enum "Adaptive")]

/-- `Predictor`: tracking.hpp 148-222; `no_setting_` stops at the name even without a colon. -/
def predictor : Schema where
  sets := [⟨"odepredictor".toList, "", .sym [("-1".toList, "Constant"), ("0".toList, "Euler"), ("1".toList, "Heun"),
    ("2".toList, "RK4"), ("3".toList, "Heun"), ("4".toList, "RKNorsett34"), ("5".toList, "RKF45"),
    ("6".toList, "RKCashKarp45"), ("7".toList, "RKDormandPrince56"), ("8".toList, "RKVerner67")]⟩]
  stopTry := atName ["odepredictor".toList]
  stopEnd := atWord "odepredictor".toList
  dflt := conf [("", .enum "RKF45")]

/-- `AlgoChoice`: algorithm.hpp 850-926; `no_setting_` stops at the name even without a colon. -/
def algoChoice : Schema where
  sets := [⟨"tracktype".toList, "", .sym [("-4".toList, "EvalFunctions"), ("-3".toList, "EvalFunctionJacobian"),
    ("-2".toList, "NewtonIteration"), ("-1".toList, "NewtonIterationCondNum"), ("0".toList, "ZeroDim"), ("1".toList, "NID"),
    ("2".toList, "SampleComponent"), ("3".toList, "MembershipTest"), ("4".toList, "ExtractWitnessSet"),
    ("5".toList, "WitnessSetProjection"), ("6".toList, "IsosingularStab")]⟩]
  stopTry := atName ["tracktype".toList]
  stopEnd := atWord "tracktype".toList
  dflt := conf [("", .enum "ZeroDim")]

/-- `FixedPrecisionConfig`: tracking.hpp 469-510; no settings. -/
def fixedPrecision : Schema where
  sets := []
  stopTry := fun _ => false
  stopEnd := fun _ => false
  dflt := conf []

end B2.Parse.Config
