import Verif.Lemmas.LstsqCut
import Verif.Lemmas.Quadrature

/-! # The systems of `NC`: up to twelve points nothing is cut off, from thirteen on something is -/

namespace Verif
open Matrix
namespace NC

/-! ## Inverses of the power matrices, from the Lagrange polynomials -/

/-- Coefficients of `(x - r) p`. -/
def mulLin (r : ℚ) (p : List ℚ) : List ℚ := List.zipWith (fun a b => a - r * b) (0 :: p) (p ++ [0])

/-- Coefficients of the polynomial that is 1 at point `j` and 0 at the others. -/
def lagrange (xs : List ℚ) (j : ℕ) : List ℚ :=
  let o := xs.eraseIdx j
  let d := (o.map fun y => xs.getD j 0 - y).prod
  (o.foldr mulLin [1]).map (· / d)

def powInverse (N : ℕ) (x : Fin N → ℚ) : Matrix (Fin N) (Fin N) ℚ :=
  let B := (List.range N).map (lagrange (List.ofFn x))
  fun j n => (B.getD j []).getD n 0

/-! ## From rational to real matrices -/

theorem map_mul_one {N : ℕ} {A B : Matrix (Fin N) (Fin N) ℚ} (h : ∀ j k, ∑ n, B j n * A n k = if j = k then 1 else 0) :
    B.map (fun x => (x : ℝ)) * A.map (fun x => (x : ℝ)) = 1 := by
  ext j k
  rw [mul_apply, one_apply]
  have := congrArg (fun x : ℚ => (x : ℝ)) (h j k)
  simp only [Rat.cast_sum, Rat.cast_mul] at this
  simp only [map_apply, this]
  split_ifs <;> simp

theorem sqSum_map {N : ℕ} (A : Matrix (Fin N) (Fin N) ℚ) : sqSum (A.map fun x => (x : ℝ)) = ((sqSum A : ℚ) : ℝ) := by
  simp [sqSum]

theorem powMatrix_map {N : ℕ} (x : Fin N → ℚ) : (powMatrix x).map (fun y => (y : ℝ)) = powMatrix fun j => (x j : ℝ) := by
  ext n j; simp [powMatrix]

theorem blockPts_cast (N : ℕ) : (fun j => ((blockPts N j : ℚ) : ℝ)) = blockPts N := by
  funext j; simp [blockPts]

theorem edgePts_cast (N : ℕ) : (fun j => ((edgePts N j : ℚ) : ℝ)) = edgePts N := by
  funext j; simp only [edgePts]; split_ifs <;> simp

/-! ## No cut-off -/

/-- The points are good enough for `lstsq`. -/
def Fine (N : ℕ) (x : Fin N → ℚ) : Prop :=
  (∀ j k, ∑ n, powInverse N x j n * powMatrix x n k = if j = k then 1 else 0) ∧
    ((N : ℚ) / 2 ^ 52) ^ 2 * sqSum (powMatrix x) * sqSum (powInverse N x) < 1

instance (N : ℕ) (x : Fin N → ℚ) : Decidable (Fine N x) := by unfold Fine; infer_instance

theorem Fine.solves {N : ℕ} {x : Fin N → ℚ} (h : Fine N x) (b w : Fin N → ℝ) :
    Lstsq (rcond N) (powMatrix fun j => (x j : ℝ)) b w ↔ powMatrix (fun j => (x j : ℝ)) *ᵥ w = b := by
  rw [← powMatrix_map]
  refine lstsq_iff_of_cond (map_mul_one h.1) ?_ b w
  rw [sqSum_map, sqSum_map, rcond]
  have := (Rat.cast_lt (K := ℝ)).mpr h.2
  push_cast at this
  exact this

theorem block_fine (N : ℕ) (hN : N ≤ 12) : Fine N (blockPts N) := by
  interval_cases N <;> decide +kernel

theorem edge_fine (N : ℕ) (hN : N ≤ 12) : Fine N (edgePts N) := by
  interval_cases N <;> decide +kernel

/-! ## Integers -/

theorem wrap_eq {z : ℤ} (h0 : 0 ≤ z) (h : z < 2 ^ 63) : wrap z = z := by
  unfold wrap
  rw [Int.bmod_eq_of_le] <;> omega

theorem pow_small {b e : ℕ} (hb : b ≤ 15) (he : e ≤ 16) : (b : ℤ) ^ e < 2 ^ 63 := by
  have h1 : b ^ e ≤ 15 ^ e := Nat.pow_le_pow_left hb e
  have h2 : 15 ^ e ≤ 15 ^ 16 := Nat.pow_le_pow_right (by norm_num) he
  have : b ^ e < 2 ^ 63 := lt_of_le_of_lt (h1.trans h2) (by norm_num)
  exact_mod_cast this

/-- Up to 16 points per block the integers do not wrap around. -/
theorem blockMatrix_eq {N : ℕ} (hN : N ≤ 16) : blockMatrix N = powMatrix (blockPts N) := by
  ext n j
  have hj := j.2
  have hn := n.2
  rw [blockMatrix, wrap_eq (by positivity) (pow_small (by omega) (by omega))]
  simp [powMatrix, blockPts]

theorem blockVector_eq {N : ℕ} (hN : N ≤ 16) : blockVector N = blockRhs N := by
  funext n
  have hn := n.2
  obtain ⟨M, rfl⟩ : ∃ M, N = M + 1 := ⟨N - 1, by omega⟩
  have e : ((M + 1 : ℕ) : ℤ) - 1 = (M : ℤ) := by push_cast; ring
  rw [blockVector, e, wrap_eq (by positivity) (pow_small (by omega) (by omega))]
  simp [blockRhs]

theorem isBlock_iff {N : ℕ} (hN : N ≤ 12) (w : Fin N → ℝ) : IsBlock w ↔ IsLstsq (powMatrix (blockPts N)) (blockRhs N) w := by
  rw [IsBlock, blockMatrix_eq (hN.trans (by norm_num)), blockVector_eq (hN.trans (by norm_num)), ← blockPts_cast,
    (block_fine N hN).solves, isLstsq_iff]
  rw [blockPts_cast]
  exact powMatrix_det_ne_zero (blockPts_injective N)

theorem isEdge_iff {N : ℕ} (hN : N ≤ 12) (e : Fin N → ℝ) : IsEdge e ↔ IsLstsq (powMatrix (edgePts N)) (edgeRhs N) e := by
  rw [IsEdge, ← edgePts_cast, (edge_fine N hN).solves, isLstsq_iff]
  rw [edgePts_cast]
  exact powMatrix_det_ne_zero (edgePts_injective N)

/-- With at most twelve points per block the weights are those of the exact systems. -/
theorem returns_iff {N Nm : ℕ} (hN : N ≤ 12) (r : Py (Fin (npts N Nm) → ℝ)) :
    Returns N Nm r ↔ ∃ w e : Fin N → ℝ, IsLstsq (powMatrix (blockPts N)) (blockRhs N) w ∧
      IsLstsq (powMatrix (edgePts N)) (edgeRhs N) e ∧ r = assemble N Nm w e := by
  simp only [Returns, isBlock_iff hN, isEdge_iff hN]

theorem Returns.exact {N Nm : ℕ} (hN : N ≤ 12) {r : Py (Fin (npts N Nm) → ℝ)} (h : Returns N Nm r) :
    ∃ w e : Fin N → ℝ, IsLstsq (powMatrix (blockPts N)) (blockRhs N) w ∧
      IsLstsq (powMatrix (edgePts N)) (edgeRhs N) e ∧ r = assemble N Nm w e :=
  (returns_iff hN r).mp h

/-- `NC` always has a result. -/
theorem exists_returns (N Nm : ℕ) : ∃ r, Returns N Nm r := by
  obtain ⟨w, hw⟩ := Verif.exists_lstsq (rcond N) (blockMatrix N) (blockVector N)
  obtain ⟨e, he⟩ := Verif.exists_lstsq (rcond N) (powMatrix (edgePts N)) (edgeRhs N)
  exact ⟨_, w, e, hw, he, rfl⟩

/-- ... and only one. -/
theorem Returns.unique {N Nm : ℕ} {r r' : Py (Fin (npts N Nm) → ℝ)} (h : Returns N Nm r) (h' : Returns N Nm r') : r = r' := by
  obtain ⟨w, e, hw, he, rfl⟩ := h
  obtain ⟨w', e', hw', he', rfl⟩ := h'
  rw [Lstsq.unique hw hw', Lstsq.unique he he']

/-! ## Cut-off -/

/-- Evidence that `lstsq` does not solve the system of the block: `w` is the solution, `w = Aᵀ y`, `y = A z`, and `z` is
larger than it could be if `w` had no part along singular vectors which are cut off. -/
def Bad (N : ℕ) (w y z : List ℚ) (i : Fin N) : Prop :=
  (∀ n : Fin N, ∑ j : Fin N, (j.1 : ℚ) ^ n.1 * w.getD j 0 = blockRhs N n) ∧
  (∀ j : Fin N, ∑ n : Fin N, (j.1 : ℚ) ^ n.1 * y.getD n 0 = w.getD j 0) ∧
  (∀ n : Fin N, ∑ j : Fin N, (j.1 : ℚ) ^ n.1 * z.getD j 0 = y.getD n 0) ∧
  ∑ j : Fin N, w.getD j 0 * w.getD j 0 <
    (((N : ℚ) / 2 ^ 52) ^ 2 * ∑ n : Fin N, ((i.1 : ℚ) ^ n.1) * ((i.1 : ℚ) ^ n.1)) ^ 2 * ∑ j : Fin N, z.getD j 0 * z.getD j 0

instance (N : ℕ) (w y z : List ℚ) (i : Fin N) : Decidable (Bad N w y z i) := by unfold Bad; infer_instance

theorem Bad.not_solves {N : ℕ} {w y z : List ℚ} {i : Fin N} (h : Bad N w y z i) {x : Fin N → ℝ}
    (hx : Lstsq (rcond N) (powMatrix (blockPts N)) (blockRhs N) x) : powMatrix (blockPts N) *ᵥ x ≠ blockRhs N := by
  obtain ⟨h1, h2, h3, h4⟩ := h
  have hd := powMatrix_det_ne_zero (blockPts_injective (K := ℝ) N)
  intro hs
  have e1 : powMatrix (blockPts N) *ᵥ (fun j : Fin N => ((w.getD j 0 : ℚ) : ℝ)) = blockRhs N := by
    funext n
    have := congrArg (fun q : ℚ => (q : ℝ)) (h1 n)
    simpa [mulVec, dotProduct, powMatrix, blockPts, blockRhs] using this
  have e2 : (powMatrix (blockPts N))ᵀ *ᵥ (fun j : Fin N => ((y.getD j 0 : ℚ) : ℝ)) = fun j : Fin N => ((w.getD j 0 : ℚ) : ℝ) := by
    funext j
    have := congrArg (fun q : ℚ => (q : ℝ)) (h2 j)
    simpa [mulVec, dotProduct, powMatrix, blockPts] using this
  have e3 : powMatrix (blockPts N) *ᵥ (fun j : Fin N => ((z.getD j 0 : ℚ) : ℝ)) = fun j : Fin N => ((y.getD j 0 : ℚ) : ℝ) := by
    funext n
    have := congrArg (fun q : ℚ => (q : ℝ)) (h3 n)
    simpa [mulVec, dotProduct, powMatrix, blockPts] using this
  obtain rfl : x = fun j : Fin N => ((w.getD j 0 : ℚ) : ℝ) := mulVec_inj_of_det_ne_zero hd (hs.trans e1.symm)
  have hb := hx.bound hd (by unfold rcond; positivity) (Pi.single i 1) (fun j : Fin N => ((z.getD j 0 : ℚ) : ℝ))
    (by rw [← mulVec_mulVec, e3, e2])
  rw [mulVec_single_one, single_one_dotProduct, Pi.single_eq_same, one_pow, one_mul] at hb
  have h5 : ((∑ j : Fin N, w.getD j 0 * w.getD j 0 : ℚ) : ℝ) < (((((N : ℚ) / 2 ^ 52) ^ 2 *
      ∑ n : Fin N, ((i.1 : ℚ) ^ n.1) * ((i.1 : ℚ) ^ n.1)) ^ 2 * ∑ j : Fin N, z.getD j 0 * z.getD j 0 : ℚ) : ℝ) := by
    exact_mod_cast h4
  refine absurd hb (not_le.mpr ?_)
  simp only [rcond]
  push_cast at h5
  simpa [dotProduct, powMatrix, blockPts, col_apply, transpose_apply] using h5

def cert13w : List ℚ :=
  [
    1364651/5255250, 150048/79625, -1264644/875875, 3572512/525525, -3432753/350350, 14586048/875875,
    -2090408/125125, 14586048/875875, -3432753/350350, 3572512/525525, -1264644/875875, 150048/79625, 1364651/5255250]

def cert13y : List ℚ :=
  [
    1364651/5255250, 54120260052941/5602905000, -9459844072066361/336174300000, 27543336516889/818606250,
    -1746423536722057/78586200000, 1275666915629/139708800, -222291286389343/89812800000, 1264450081703/2778300000,
    -83790127184437/1466942400000, 4590209513/952560000, -164300700307/628689600000, 790336081/96049800000,
    -790336081/6915585600000]

def cert13z : List ℚ :=
  [
    -1493389395234091890379594901/5382936921922560000000, 74146159439207666410648453/38646726618931200000,
    -312603168364015337758536457/43916734794240000000, 935091521667382341951213953/52700081753088000000,
    -93126841598381790037272167/2927782319616000000, 618623281036164222540977341/14638911598080000000,
    -13217281710223018929462323/313690962816000000, 65928037948826524962747079/2091273085440000000,
    -102352411091548382408942857/5855564639232000000, 367862930773883723325021341/52700081753088000000,
    -83489243418889509928243519/43916734794240000000, 61152953718177628247172173/193233633094656000000,
    -4405564589024939222840477/181156531026240000000]

def cert14w : List ℚ :=
  [
    106364763817/402361344000, 731649485593/402361344000, -22582626859/22353408000, 144926245243/28740096000,
    -78862978129/16094453760, 298542743759/44706816000, -46704658663/33530112000, -46704658663/33530112000,
    298542743759/44706816000, -78862978129/16094453760, 144926245243/28740096000, -22582626859/22353408000,
    731649485593/402361344000, 106364763817/402361344000]

def cert14y : List ℚ :=
  [
    106364763817/402361344000, 799844999819802911/506975293440000, -134681457099749672411/30418517606400000,
    8233679300668622359/1629563443200000, -123618442022289249997/39109522636800000,
    1159099618835190877/948109639680000, -194243533135648135451/625752362188800000,
    12959928034977927107/243348140851200000, -9076574623254883589/1460088845107200000,
    1268516281633679/2607301509120000, -15285611230771037/625752362188800000, 74138872771171/104292060364800000,
    -5702990213167/625752362188800000, 0]

def cert14z : List ℚ :=
  [
    -4842650988856597432763709510893/104907733942275145728000000,
    29611942872177972571378939281053/87423111618562621440000000,
    -118818669458694352601106732179113/87423111618562621440000000,
    88496826502730080000220729882509/23842666805062533120000000,
    -669975254934794133776911130983/90829206876428697600000,
    2916406227194384725498964603831/264918520056250368000000,
    -49798601265680987255097781847563/3973777800843755520000000,
    4826373517737704765106176867627/441530866760417280000000,
    -3501196826181230314086854708699/481670036465909760000000,
    3458953797071964770978739669121/953706672202501324800000,
    -2092678233786216588615040399163/1589511120337502208000000,
    4104538004016113539290728985919/12489015945508945920000000,
    -26487974989022329816126038998923/524538669711375728640000000,
    78746531602156757383444462387/21855777904640655360000000]

def cert15w : List ℚ :=
  [
    631693279/2501928000, 311056753/156370500, -5395044599/2501928000, 765940609/78185250, -46375653541/2501928000,
    5525678207/156370500, -39205297537/833976000, 712193069/13030875, -39205297537/833976000, 5525678207/156370500,
    -46375653541/2501928000, 765940609/78185250, -5395044599/2501928000, 311056753/156370500, 631693279/2501928000]

def cert15y : List ℚ :=
  [
    631693279/2501928000, 6319612943707333903/64399626720000, -8211008380139861893981/27047843222400000,
    702007168768886461397/1783374278400000, -1542804431627729870599/5350122835200000,
    17484470540266210999/129699947520000, -12827259538776830729/299307571200000, 97269615883942301/10132808400000,
    -3501208508839157761/2269749081600000, 11585078131442039/64849973760000, -28760289627920467/1945499212800000,
    1520110089594677/1783374278400000, -347964832491893/10700245670400000, 2735834747177/3709418499072000,
    -390833535311/51931858987008000]

def cert15z : List ℚ :=
  [
    -16806398762089671690327046347180359/4527330725326720440729600000,
    720531382433870543559108163108962983/24253557457107430932480000000,
    -486131448184505863446735144867288323/3731316531862681681920000000,
    121288423893932102627647662912073937/310943044321890140160000000,
    -290104235908388539521496526785043489/339210593805698334720000000,
    9640470352595924463548544093596663/6784211876113966694400000,
    -6244062349259503996228827112740151/3426369634400993280000000,
    13839892977796566686050698050287991/7610494091794513920000000,
    -159649656270476848377073139778589781/113070197935232778240000000,
    3678865871057276228148500169272081/4348853766739722240000000,
    -5210881847097866746990342280656259/13568423752227933388800000,
    119290359653528596059083654831547683/932829132965670420480000000,
    -36671343962796738563703462566599331/1243772177287560560640000000,
    102074866736698511658722607872673551/24253557457107430932480000000,
    -95203442702593200547972723969445279/339549804399504033054720000000]

def cert16w : List ℚ :=
  [
    25221445/98402304, 442589775/229605376, -388226775/229605376, 1746295975/229605376, -372104925/32800768,
    4103141115/229605376, -10001664025/688816128, 1698012675/229605376, 1698012675/229605376, -10001664025/688816128,
    4103141115/229605376, -372104925/32800768, 1746295975/229605376, -388226775/229605376, 442589775/229605376,
    25221445/98402304]

def cert16y : List ℚ :=
  [
    25221445/98402304, 30877626743230819/2256561635328, -429262972031776492627/10425314755215360,
    1012352850649928105/19639525441536, -14941423524315631961/412430034272256, 38473794335690099/2380548538368,
    -7320466364408513011/1499745579171840, 103458011107275805/99983038611456, -82341380208058847/524910952710144,
    244146024604135/14283291230208, -995743345329457/749872789585920, 341576050315/4761097076736,
    -2112223096457/824860068544512, 775834239787/14297574521438208, -775834239787/1501245324751011840, 0]

def cert16z : List ℚ :=
  [
    -184070887502920725744746865454441/349002672223419407152447488,
    184799787021934762688734639754107/41547937169454691327672320,
    -26004995289311264979289786263211063/1246438115083640739830169600,
    32336407899629065480614837534043/479399275032169515319296,
    -15440514673491120655355417375482951/95879855006433903063859200,
    98558411659243040551493891225669/335244248274244416307200,
    -280648286922541908272740715324969/670488496548488832614400,
    2387827587642326483254252825795451/5084537765492706980659200,
    -403401562877142755656262439766051/968483383903372758220800,
    1268410864563806510339441215968157/4358175227565177411993600,
    -460538775597814736300286505940521/2905450151710118274662400,
    395263958401842393762576289875937/5992490937902118941491200,
    -388750572180484078091525745502969/19175971001286780612771840,
    2704758110725508190580541651818601/623219057541820369915084800,
    -5044614297227853074189655433136303/8725066805585485178811187200,
    11251894787030309794818430758373/311609528770910184957542400]

theorem bad13 : Bad 13 cert13w cert13y cert13z 12 := by decide +kernel

theorem bad14 : Bad 14 cert14w cert14y cert14z 13 := by decide +kernel

theorem bad15 : Bad 15 cert15w cert15y cert15z 14 := by decide +kernel

theorem bad16 : Bad 16 cert16w cert16y cert16z 15 := by decide +kernel

/-- With 13 to 16 points per block the weights of the block do not satisfy their equations. -/
theorem block_not_solves {N : ℕ} (h : 13 ≤ N) (h' : N ≤ 16) {w : Fin N → ℝ} (hw : IsBlock w) :
    powMatrix (blockPts N) *ᵥ w ≠ blockRhs N := by
  rw [IsBlock, blockMatrix_eq h', blockVector_eq h'] at hw
  interval_cases N
  · exact bad13.not_solves hw
  · exact bad14.not_solves hw
  · exact bad15.not_solves hw
  · exact bad16.not_solves hw

end NC
end Verif
