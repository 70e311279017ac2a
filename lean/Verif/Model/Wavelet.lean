import Verif.Model.Fir
import Verif.Model.Exact
import Mathlib.Data.Real.Basic

/-
Model of diamondback/transforms/wavelet_transform.py, class WaveletTransform.  Simplifications: exact real arithmetic; real arrays;
`cast` is the conversion that numpy applies when a value is stored in an array of the dtype of the incident signal (identity for float,
truncation for integers).  An array of two dimensions is a pair of lengths and a function; its values at other indices are meaningless.
-/

namespace Verif

/-- The keys of WaveletTransform.B (wavelet_transform.py:479). -/
inductive WaveStyle where
  | coiflet
  | daubechies
  | haar
  | symmlet
  deriving DecidableEq, Repr

/-- WaveletTransform.B (wavelet_transform.py:90-478): the decimal digits as integers and the count of decimals. -/
def Wavelet.digits : WaveStyle → ℤ → Option (List ℤ × ℕ)
  | .coiflet, 5 => some ([-7269889797984, 33788487810742, 85255707635042, 38485416611448, -7272889752509, -1565476269428], 14)
  | .coiflet, 11 => some ([16387336463, -41464936782, -67372554722, 386110066823, 812723635450, 417005184424, -76488599078, -59434418646,
      23680171947, 5611434819, -1823208871, -720549445], 12)
  | .coiflet, 17 => some ([-3793512864, 7782596426, 23452696142, -65771911281, -61123390003, 405176902410, 793777222626, 428483476378,
      -71799821619, -82301927106, 34555027573, 15880544864, -9007976137, -2574517688, 1117518771, 466216960, -70983303, -34599773], 12)
  | .coiflet, 23 => some ([892313668, -1629492013, -7346166328, 16068943964, 26682300156, -81266699680, -56077313316, 415308407030,
      782238930920, 434386056491, -66627474263, -96220442034, 39334427123, 25082261845, -15211731527, -5658286686, 3751436157, 1266561929,
      -589020757, -259974552, 62339034, 31229876, -3259680, -1784985], 12)
  | .coiflet, 29 => some ([-212080863, 358589677, 2178236305, -4159358782, -10131117538, 23408156762, 28168029062, -91920010549,
      -52043163216, 421566206729, 774289603740, 437991626228, -62035963906, -105574208706, 41289208741, 32683574283, -19761779012, -9164231153,
      6764185419, 2433373209, -1662863769, -638131296, 302259520, 140541149, -41340484, -21315014, 3734597, 2063806, -167408, -95158], 12)
  | .daubechies, 3 => some ([4829629131445341, 8365163037378077, 2241438680420134, -1294095225512603], 16)
  | .daubechies, 5 => some ([3326705529500825, 8068915093110924, 4598775021184914, -1350110200102546, -854412738820267, 352262918857095],
      16)
  | .daubechies, 7 => some ([2303778133088964, 7148465715529154, 6308807679398587, -279837694168599, -1870348117190931, 308413818355607,
      328830116668852, -105974017850690], 16)
  | .daubechies, 9 => some ([1601023979741929, 6038292697971895, 7243085284377726, 1384281459013203, -2422948870663823, -322448695846381,
      775714930400459, -62414902127983, -125807519990820, 33357252854738], 16)
  | .daubechies, 11 => some ([1115407433501095, 4946238903984533, 7511339080210959, 3152503517091982, -2262646939654400, -1297668675672625,
      975016055873225, 275228655303053, -315820393174862, 5538422011614, 47772575109455, -10730108530850], 16)
  | .daubechies, 13 => some ([77852054085, 396539319482, 729132090846, 469782287405, -143906003929, -224036184994, 71309219267, 80612609151,
      -38029936935, -16574541631, 12550998556, 429577973, -1801640704, 353713800], 12)
  | .daubechies, 15 => some ([54415842243, 312871590914, 675630736297, 585354683654, -15829105256, -284015542962, 472484574, 128747426620,
      -17369301002, -44088253931, 13981027917, 8746094047, -4870352993, -391740373, 675449406, -117476784], 12)
  | .daubechies, 17 => some ([38077947364, 243834674613, 604823123690, 657288078051, 133197385825, -293273783279, -96840783223,
      148540749338, 30725681479, -67632829061, 250947115, 22361662124, -4723204758, -4281503682, 1847646883, 230385764, -251963189, 39347320], 12)
  | .daubechies, 19 => some ([26670057901, 188176800078, 527201188932, 688459039454, 281172343661, -249846424327, -195946274377,
      127369340336, 93057364604, -71394147166, -29457536822, 33212674059, 3606553567, -10733175483, 1395351747, 1992405295, -685856695,
      -116466855, 93588670, -13264203], 12)
  | .haar, 1 => some ([10, 10], 1)
  | .symmlet, 7 => some ([-7576571478936, -2963552764596, 49761866763256, 80373875180539, 29785779560561, -9921954357696, -1260396726226,
      3222310060408], 14)
  | .symmlet, 9 => some ([1953888273539, -2110183402493, -17532808990810, 1660210576442, 63397896345691, 72340769040376, 19939753397698,
      -3913424930258, 2951949092607, 2733306834516], 14)
  | .symmlet, 11 => some ([1540410932734, 349071208433, -11799011114842, -4831174258600, 49105594192767, 78764114102884, 33792942172826,
      -7263752278660, -2106029251270, 4472490177075, 176771186440, -780070832477], 14)
  | .symmlet, 13 => some ([268181456812, -104738488897, -1263630340315, 3051551316589, 6789269350156, -4955283493702, 1744125508710,
      53610191709051, 76776431700420, 28862963175084, -14004724044264, -10780823770356, 401024487170, 1026817670849], 14)
  | .symmlet, 15 => some ([188995033290, -30292051455, -1495225833679, 380875201406, 4913717967348, -2721902991682, -5194583810788,
      36444189483599, 77718575169981, 48135965125924, -6127335906791, -14329423835107, 760748732529, 3169508781035, -54213233164, -338241595136],
      14)
  | .symmlet, 17 => some ([140091552557, 61978088905, -1327196778152, -1152821020798, 3022487885797, 58346274633, -5456895843054,
      23876091460724, 71789708276370, 61733844914090, 3527248803591, -19155083129635, -1823377077981, 6207778930272, 885926749351, -1026406402768,
      -47315449859, 106949003265], 14)
  | .symmlet, 19 => some ([77015980894, 9563267076, -864129927412, -146538258304, 4592723921408, 1160989391052, -15949427882389,
      -7088053579591, 47169066674317, 76951003685204, 38382676114443, -3553674029797, -3199005682142, 4999497206861, 576491204434, -2035493979965,
      -80435893437, 459317358270, 5703608433, -45932942045], 14)
  | _, _ => none

/-- WaveletTransform.B as real arrays (wavelet_transform.py:90-478). -/
noncomputable def Wavelet.table (style : WaveStyle) (order : ℤ) : Option (List ℝ) :=
  (Wavelet.digits style order).map fun p => p.1.map fun z : ℤ => (z : ℝ) / 10 ^ p.2

/-- A WaveletTransform instance: `_b` (wavelet_transform.py:509), analysis and synthesis, each low pass and high pass. -/
structure Wavelet where
  analysis : List ℝ × List ℝ
  synthesis : List ℝ × List ℝ

/-- `b[start::2] *= -1.0` (wavelet_transform.py:511). -/
def wav.negate (start : ℕ) (b : List ℝ) : List ℝ :=
  b.zipIdx.map fun p => if start ≤ p.2 ∧ (p.2 - start) % 2 = 0 then p.1 * -1 else p.1

/-- wavelet_transform.py:501-513.  The branch of wavelet_transform.py:507 is for even `n`, which no table entry has (`C48_orders_odd`); here `ii =
[1, 1]` stands for it. -/
noncomputable def wav.filters (b : List ℝ) : Wavelet :=
  let n := b.length - 1
  let b := b.map (· / b.sum)
  let v := b.reverse
  let i1 := if n % 2 = 1 then 0 else 1
  let h := wav.negate 1 b
  let g := wav.negate i1 v
  if n ≠ 1 then { analysis := (b, h.reverse), synthesis := (v, g.reverse) } else { analysis := (b, h), synthesis := (v, g) }

/-- WaveletTransform.__init__ (wavelet_transform.py:485-513); `style` is the result of the lookup of `style.title()`. -/
noncomputable def Wavelet.new (style : Option WaveStyle) (order : ℤ) : Res Wavelet :=
  match style with
  | none => .error .valueError
  | some style =>
    match Wavelet.table style order with
    | none => .error .valueError
    | some b => .ok (wav.filters b)

/-- `fir_filter[kk].s[:] = 0.0; fir_filter[kk].filter(l)` for `FirFilter(b=b)` (wavelet_transform.py:546, 551-552); the signal is never empty. -/
noncomputable def wav.fir (b l : List ℝ) : List ℝ :=
  match Fir.new id b none with
  | .error _ => []
  | .ok f => match (f.filter l).1 with
    | .error _ => []
    | .ok u => u

/-- `u[1::2]` (wavelet_transform.py:553, 560). -/
def wav.odds (u : List ℝ) : List ℝ := (List.range (u.length / 2)).map fun k => u.getD (2 * k + 1) 0

/-- `u = numpy.zeros(n); u[::2] = a` (wavelet_transform.py:571, 575, 580, 584). -/
def wav.up (n : ℕ) (a : List ℝ) : List ℝ := (List.range n).map fun k => if k % 2 = 0 then a.getD (k / 2) 0 else 0

/-- Analysis of one line (wavelet_transform.py:550-553): both halves. -/
noncomputable def wav.analyse (cast : ℝ → ℝ) (b : List ℝ × List ℝ) (l : List ℝ) : List ℝ :=
  (wav.odds (wav.fir b.1 l) ++ wav.odds (wav.fir b.2 l)).map cast

/-- Synthesis of one line (wavelet_transform.py:573-578). -/
noncomputable def wav.synthesise (cast : ℝ → ℝ) (b : List ℝ × List ℝ) (l : List ℝ) : List ℝ :=
  let n := l.length
  (List.zipWith (· + ·) ((wav.fir b.1 (wav.up n (l.take (n / 2)))).map (2 * ·)) ((wav.fir b.2 (wav.up n (l.drop (n / 2)))).map (2 * ·))).map cast

/-- An array of two dimensions (wavelet_transform.py:536). -/
structure Arr where
  rows : ℕ
  cols : ℕ
  val : ℕ → ℕ → ℝ

/-- Replace the first `rr` rows, up to column `cc`, by their images (wavelet_transform.py:549-554, 580-587). -/
def wav.mapRows (f : List ℝ → List ℝ) (rr cc : ℕ) (v : ℕ → ℕ → ℝ) : ℕ → ℕ → ℝ := fun i j =>
  if i < rr ∧ j < cc then (f ((List.range cc).map fun j => v i j)).getD j 0 else v i j

/-- Replace the first `cc` columns, up to row `rr`, by their images (wavelet_transform.py:556-560, 571-578). -/
def wav.mapCols (f : List ℝ → List ℝ) (rr cc : ℕ) (v : ℕ → ℕ → ℝ) : ℕ → ℕ → ℝ := fun i j =>
  if i < rr ∧ j < cc then (f ((List.range rr).map fun i => v i j)).getD i 0 else v i j

/-- `y[:ii, 0:jj] = r` (wavelet_transform.py:564, 569). -/
def wav.patch (ii jj : ℕ) (r y : ℕ → ℕ → ℝ) : ℕ → ℕ → ℝ := fun i j => if i < ii ∧ j < jj then r i j else y i j

/-- The condition of wavelet_transform.py:540. -/
def wav.bad (rows cols count : ℕ) : Prop := (rows ≠ 1 ∧ rows % 2 ^ count ≠ 0) ∨ (cols ≠ 1 ∧ cols % 2 ^ count ≠ 0)

instance (rows cols count : ℕ) : Decidable (wav.bad rows cols count) := inferInstanceAs (Decidable (_ ∨ _))

/-- WaveletTransform.transform for two dimensions (wavelet_transform.py:536-564), `inverse = False`.  A zero dimension of columns with more than one
row makes `v[:rr, 0]` raise IndexError. -/
noncomputable def wav.forward (cast : ℝ → ℝ) (b : List ℝ × List ℝ) : ℕ → Arr → Res Arr
  | 0, _ => .error .valueError
  | count + 1, x =>
    if x.rows = 0 then .error .valueError
    else if wav.bad x.rows x.cols (count + 1) then .error .valueError
    else
      let rr := max (x.rows / 2 ^ (count + 1) * 2 ^ (count + 1)) 1
      let cc := max (x.cols / 2 ^ (count + 1) * 2 ^ (count + 1)) 1
      if x.cols = 0 ∧ rr > 1 then .error .indexError
      else
        let v := if cc > 1 then wav.mapRows (wav.analyse cast b) rr cc x.val else x.val
        let y := if rr > 1 then wav.mapCols (wav.analyse cast b) rr cc v else v
        if count + 1 > 1 then
          let ii := max (rr / 2) 1
          let jj := max (cc / 2) 1
          match wav.forward cast b count { rows := min ii x.rows, cols := min jj x.cols, val := y } with
          | .error e => .error e
          | .ok r => .ok { x with val := wav.patch ii jj r.val y }
        else .ok { x with val := y }

/-- The same with `inverse = True` (wavelet_transform.py:565-587). -/
noncomputable def wav.backward (cast : ℝ → ℝ) (b : List ℝ × List ℝ) : ℕ → Arr → Res Arr
  | 0, _ => .error .valueError
  | count + 1, x =>
    if x.rows = 0 then .error .valueError
    else if wav.bad x.rows x.cols (count + 1) then .error .valueError
    else
      let rr := max (x.rows / 2 ^ (count + 1) * 2 ^ (count + 1)) 1
      let cc := max (x.cols / 2 ^ (count + 1) * 2 ^ (count + 1)) 1
      if x.cols = 0 ∧ rr > 1 then .error .indexError
      else
        let inner : Res (ℕ → ℕ → ℝ) :=
          if count + 1 > 1 then
            let ii := max (rr / 2) 1
            let jj := max (cc / 2) 1
            match wav.backward cast b count { rows := min ii x.rows, cols := min jj x.cols, val := x.val } with
            | .error e => .error e
            | .ok r => .ok (wav.patch ii jj r.val x.val)
          else .ok x.val
        match inner with
        | .error e => .error e
        | .ok y =>
          let y := if rr > 1 then wav.mapCols (wav.synthesise cast b) rr cc y else y
          let y := if cc > 1 then wav.mapRows (wav.synthesise cast b) rr cc y else y
          .ok { x with val := y }

/-- The argument of `transform`: one dimension, two dimensions, or more (wavelet_transform.py:534). -/
inductive WaveArg where
  | vec (x : List ℝ)
  | mat (x : Arr)
  | other

/-- WaveletTransform.transform (wavelet_transform.py:515-590). -/
noncomputable def Wavelet.transform (cast : ℝ → ℝ) (w : Wavelet) (x : WaveArg) (count : ℤ) (inverse : Bool) : Res WaveArg :=
  let go := if inverse then wav.backward cast w.synthesis else wav.forward cast w.analysis
  match x with
  | .other => .error .valueError
  | .mat x =>
    match go count.toNat x with
    | .error e => .error e
    | .ok y => .ok (.mat y)
  | .vec x =>
    if x = [] then .error .valueError
    else
      match go count.toNat { rows := 1, cols := x.length, val := fun _ j => x.getD j 0 } with
      | .error e => .error e
      | .ok y => .ok (.vec ((List.range x.length).map fun j => y.val 0 j))

end Verif
