import Mathlib.Data.List.Basic
import Mathlib.Data.Nat.Digits.Defs

/-!
# Command line (src/io/input.cpp)

A C string is a list of characters (without the final zero); `argv` is a list of strings and `argc` its length.
The text of the error messages is not modelled. `PC_parse_path` (the YAML parser) is external: the model only says which file
it is called with.
-/

namespace Verif.Input

/-- What the program does: the function returns with the configuration read in `file` and `iter_start` (in the overload without restart there
is no `iter_start` and it is 0); the program ends with success after `text` has been written to `file`; the program
ends with failure. `src/io/input.cpp:26-27,31-34,51`. -/
inductive Outcome
  | returns (file : List Char) (iterStart : ℤ)
  | dumps (file text : List Char)
  | fails
deriving DecidableEq, Repr

/-- `path::filename` of a POSIX path: what follows the last `/`. Used by `fs::path::extension` in `src/io/input.cpp:23,40,58`. -/
def filename (p : List Char) : List Char := (p.reverse.takeWhile fun c => c ≠ '/').reverse

/-- `fs::path::extension` (`src/io/input.cpp:23,40,58`), as specified in [fs.path.decompose]: empty for the file names `.` and `..`, for a file name
without period or whose only period is its first character; otherwise the rightmost period and what follows. -/
def extension (p : List Char) : List Char :=
  let f := filename p
  if f = ['.'] ∨ f = ['.', '.'] then []
  else
    let after := (f.reverse.takeWhile fun c => c ≠ '.').reverse
    let before := f.take (f.length - after.length - 1)
    if '.' ∈ f ∧ before ≠ [] then '.' :: after else []

/-- `isspace` in the C locale; used by `strtol`, `src/io/input.cpp:38`. -/
def isSpace (c : Char) : Bool := c = ' ' || c = '\t' || c = '\n' || c = '\x0b' || c = '\x0c' || c = '\r'

/-- Value of a decimal digit character; used by `strtol`, `src/io/input.cpp:38`. -/
def digitVal (c : Char) : ℕ := c.toNat - '0'.toNat

/-- A decimal digit character; used by `strtol`, `src/io/input.cpp:38`. -/
def isDigit (c : Char) : Bool := '0'.toNat ≤ c.toNat && c.toNat ≤ '9'.toNat

/-- The number written by the leading digits; no digit gives 0. Used by `strtol`, `src/io/input.cpp:38`. -/
def leadingNumber (s : List Char) : ℕ := (s.takeWhile isDigit).foldl (fun acc c => 10 * acc + digitVal c) 0

/-- Optional sign and digits. Used by `strtol`, `src/io/input.cpp:38`. -/
def signedNumber : List Char → ℤ
  | [] => 0
  | c :: t =>
    if c = '-' then -(leadingNumber t : ℤ)
    else if c = '+' then (leadingNumber t : ℤ)
    else (leadingNumber (c :: t) : ℤ)

/-- `std::strtol(s, NULL, 10)` with a 64 bit `long`, `src/io/input.cpp:38`: leading white space, optional sign, digits; the result is clamped to
`[LONG_MIN, LONG_MAX]`. -/
def strtol (s : List Char) : ℤ :=
  max (-2 ^ 63) (min (2 ^ 63 - 1) (signedNumber (s.dropWhile isSpace)))

/-- The test on the extension, `src/io/input.cpp:23,40,58`. -/
def isYaml (p : List Char) : Bool := extension p = ".yaml".toList || extension p = ".yml".toList

/-- `parse_executable_arguments(conf, iter_start, argc, argv, params_yaml)`, `src/io/input.cpp:13-52`. -/
def parseRestart (params : List Char) (argv : List (List Char)) : Outcome :=
  match argv with
  | [_, a1] => if isYaml a1 then .returns a1 0 else .fails
  | [_, a1, a2] => if a1 = "--dump-config".toList then .dumps a2 params else .fails
  | [_, a1, a2, a3] =>
    if a1 = "--iter-restart".toList then
      let iter := strtol a2
      if isYaml a3 then .returns a3 iter else .fails
    else .fails
  | _ => .fails

/-- `parse_executable_arguments(argc, argv, params_yaml)`, `src/io/input.cpp:54-74`. -/
def parse (params : List Char) (argv : List (List Char)) : Outcome :=
  match argv with
  | [_, a1] => if isYaml a1 then .returns a1 0 else .fails
  | [_, a1, a2] => if a1 = "--dump-config".toList then .dumps a2 params else .fails
  | _ => .fails

end Verif.Input
