import Verif.Model.Hilbertc
import Verif.Model.Prs

/-!
# Model of `src/codec.rs`: the codecs and their names

`f64::from_str` is the parameter `parseF64`.  `\d` in a regular expression stands for the decimal digits of
all alphabets: the digits `0` to `9` and some characters that are not ASCII, which are the parameter
`uniDigit`.
-/

namespace Cniic
open Prs

/-- `enum AnyCodec` (codec.rs:33-37 with codec.rs:120-127). -/
inductive AnyCodec where
  /-- `struct ClusterColors` (clusterc.rs:15) -/
  | clusterColors (n : UInt64)
  /-- `struct VoronoiCluster` (clusterc.rs:145) -/
  | voronoi (n : UInt64)
  /-- `struct Delta` (hilbertc.rs:402) -/
  | delta
  /-- `struct Hilbert` (hilbertc.rs:12-14) -/
  | hilbert (m : CompressionMethod)
  /-- `struct Hufman` (hufc.rs:9) -/
  | hufman
  /-- `enum Zip` (zipc.rs:9-12) -/
  | zip (z : Zip)
  deriving DecidableEq

/-- `is_lossless` (codec.rs:88-94, clusterc.rs:63-65,195-197, hilbertc.rs:89-94,437-439, hufc.rs:46-48,
zipc.rs:57-59). -/
def AnyCodec.isLossless : AnyCodec → Bool
  | .clusterColors _ => false
  | .voronoi _ => false
  | .delta => true
  | .hilbert (.rle d) => d.isZero
  | .hilbert .zip => true
  | .hufman => true
  | .zip _ => true

/-! ## Numbers -/

/-- The value of decimal digits, after the digits whose value is `acc`. -/
def digitsVal : Nat → List Char → Option Nat
  | acc, [] => some acc
  | acc, c :: cs => if c.isDigit then digitsVal (10 * acc + (c.toNat - 48)) cs else none

/-- `usize::from_str`: an optional `+`, then decimal digits, at least one; the value must fit. -/
def usizeFromStr (s : List Char) : Option UInt64 :=
  let digits := match s with
    | '+' :: rest => rest
    | _ => s
  if digits.isEmpty then none
  else
    match digitsVal 0 digits with
    | some n => if n < 2 ^ 64 then some (UInt64.ofNat n) else none
    | none => none

/-- `\d`. -/
def isDecimal (uniDigit : Char → Bool) (c : Char) : Bool := c.isDigit || (128 ≤ c.toNat && uniDigit c)

/-! ## The parsers of the codecs -/

/-- `c(?:luster)?-?col(?:ors)?\((\d+)\)` (clusterc.rs:125). -/
def clusterColorsRe (uniDigit : Char → Bool) : Re :=
  .seq (.str "c".toList) <| .seq (.opt (.str "luster".toList)) <| .seq (.opt (.str "-".toList)) <|
    .seq (.str "col".toList) <| .seq (.opt (.str "ors".toList)) <| .seq (.str "(".toList) <|
      .seq (.captured (isDecimal uniDigit)) (.str ")".toList)

/-- `voronoi\((\d+)\)` (clusterc.rs:281). -/
def voronoiRe (uniDigit : Char → Bool) : Re :=
  .seq (.str "voronoi(".toList) <| .seq (.captured (isDecimal uniDigit)) (.str ")".toList)

/-- `ClusterColors::from_str` (clusterc.rs:119-140).  There is one capture group besides the match, so the
test in lines 131-133 does not fail. -/
def clusterColorsFromStr (uniDigit : Char → Bool) (s : List Char) : Ret ParseError AnyCodec :=
  match (clusterColorsRe uniDigit).captures s with
  | none => .err (.other .noMatch)
  | some digits =>
    match usizeFromStr digits with
    | some n => .ok (.clusterColors n)
    | none => .err (.other .badInteger)

/-- `VoronoiCluster::from_str` (clusterc.rs:277-296). -/
def voronoiFromStr (uniDigit : Char → Bool) (s : List Char) : Ret ParseError AnyCodec :=
  match (voronoiRe uniDigit).captures s with
  | none => .err (.other .noMatch)
  | some digits =>
    match usizeFromStr digits with
    | some n => .ok (.voronoi n)
    | none => .err (.other .badInteger)

/-- `Delta::from_str` (hilbertc.rs:578-581). -/
def deltaFromStr (s : List Char) : Ret ParseError AnyCodec :=
  match expectName s "delta".toList with
  | .ok _ => .ok .delta
  | .err e => .err e
  | .panic => .panic

/-- The closure `parse_rle` (hilbertc.rs:358-381). -/
def parseRle (chk : Bool) (parseF64 : List Char → Option F64) (s : List Char) :
    Ret ParseError CompressionMethod :=
  if matchesFully s (.str "rle".toList) then .ok (.rle (.fin 0))
  else
    match funCall chk s with
    | .err _ => .err (.other (.notAFunction s))
    | .panic => .panic
    | .ok (rle, rleArgs) =>
      if matchesFully rle (.str "rle".toList) then
        if rleArgs.length > 1 then .err (.wrongNumberOfArguments 1 rleArgs.length)
        else
          match rleArgs with
          -- the assertion in line 374
          | [] => .panic
          | arg :: _ =>
            match parseF64 arg with
            | some d => .ok (.rle d)
            | none => .err (.other .badFloat)
      else .err (.wrongName "rle".toList rle)

/-- The closure `parse_zip` (hilbertc.rs:383-388). -/
def parseZip (s : List Char) : Ret ParseError CompressionMethod :=
  if matchesFully s (.str "zip".toList) then .ok .zip else .err (.wrongName "zip".toList s)

/-- `CompressionMethod::from_str` (hilbertc.rs:357-394). -/
def compressionFromStr (chk : Bool) (parseF64 : List Char → Option F64) (s : List Char) :
    Ret ParseError CompressionMethod :=
  ((Alternatives.new.thenTry "rle" (parseRle chk parseF64 s)).thenTry "zip" (parseZip s)).end

/-- `[Hh]ilbert` (hilbertc.rs:343). -/
def hilbertRe : Re := .seq (.chr fun c => c == 'H' || c == 'h') (.str "ilbert".toList)

/-- `Hilbert::from_str` (hilbertc.rs:340-351). -/
def hilbertFromStr (chk : Bool) (parseF64 : List Char → Option F64) (s : List Char) : Ret ParseError AnyCodec :=
  match funCall chk s with
  | .err _ => .err (.other (.notAFunction s))
  | .panic => .panic
  | .ok (hilbert, args) =>
    if matchesFully hilbert hilbertRe then
      match args with
      | [arg] =>
        match compressionFromStr chk parseF64 arg with
        | .ok m => .ok (.hilbert m)
        | .err e => .err e
        | .panic => .panic
      | _ => .err (.wrongNumberOfArguments 1 args.length)
    else .err (.other (.incorrectName hilbert))

/-- `Hufman::from_str` (hufc.rs:54-62). -/
def hufmanFromStr (s : List Char) : Ret ParseError AnyCodec :=
  if s.map Char.toLower = "hufman".toList then .ok .hufman else .err (.other .notHufman)

/-- `Zip::from_str` (zipc.rs:65-80). -/
def zipFromStr (chk : Bool) (s : List Char) : Ret ParseError AnyCodec :=
  match funCall chk s with
  | .err _ => .err (.other .incorrectSyntax)
  | .panic => .panic
  | .ok (zipName, zipArgs) =>
    if matchesFully zipName (.str "zip".toList) then
      match zipArgs with
      | [arg] =>
        if arg = "dict".toList then .ok (.zip .dict)
        else if arg = "back".toList then .ok (.zip .back)
        else .err (.other (.unrecognizedArgument arg))
      | _ => .err (.other (.wrongNumberOfArguments zipArgs.length))
    else .err (.other (.incorrectName zipName))

/-- `AnyCodec::from_str` (codec.rs:46-57 with codec.rs:120-127). -/
def anyCodecFromStr (chk : Bool) (uniDigit : Char → Bool) (parseF64 : List Char → Option F64)
    (s : List Char) : Ret ParseError AnyCodec :=
  ((((((Alternatives.new
    |>.thenTry "ClusterColors" (clusterColorsFromStr uniDigit s))
    |>.thenTry "VoronoiCluster" (voronoiFromStr uniDigit s))
    |>.thenTry "Delta" (deltaFromStr s))
    |>.thenTry "Hilbert" (hilbertFromStr chk parseF64 s))
    |>.thenTry "Hufman" (hufmanFromStr s))
    |>.thenTry "Zip" (zipFromStr chk s)).end

end Cniic
