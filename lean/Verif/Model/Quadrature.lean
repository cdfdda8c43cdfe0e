/-
Model of the Gauss-Legendre quadrature (`include/samurai/numeric/gauss_legendre.hpp`). `K` stands for `double`, without rounding: the points and the weights are the decimal numbers
written in the code.
-/
import Verif.Model.Cell
import Mathlib.Data.Fin.VecNotation

namespace Samurai

/-- `n_required_points(degree)` (gauss_legendre.hpp:12-15): `ceil((degree + 1) / 2)`; a `size_t` degree is never negative as `int` below `2^31`. -/
def glRequired (degree : Nat) : Nat := (degree + 1 + 1) / 2

/-- The points and the weights (gauss_legendre.hpp:100-601), multiplied by `10^16`. `none`: the arrays are not initialized. -/
def glTable : Nat → Option (List (Int × Int))
  | 1 => some [(0, 20000000000000000)]
  | 2 => some [(-5773502691896257, 10000000000000000), (5773502691896257, 10000000000000000)]
  | 3 => some [(0, 8888888888888888), (-7745966692414834, 5555555555555556), (7745966692414834, 5555555555555556)]
  | 4 => some [(-3399810435848563, 6521451548625461), (3399810435848563, 6521451548625461), (-8611363115940526, 3478548451374538), (8611363115940526, 3478548451374538)]
  | 5 => some [(0, 5688888888888889), (-5384693101056831, 4786286704993665), (5384693101056831, 4786286704993665), (-9061798459386640, 2369268850561891), (9061798459386640, 2369268850561891)]
  | 6 => some [(6612093864662645, 3607615730481386), (-6612093864662645, 3607615730481386), (-2386191860831969, 4679139345726910), (2386191860831969, 4679139345726910), (-9324695142031521, 1713244923791704), (9324695142031521, 1713244923791704)]
  | 7 => some [(0, 4179591836734694), (4058451513773972, 3818300505051189), (-4058451513773972, 3818300505051189), (-7415311855993945, 2797053914892766), (7415311855993945, 2797053914892766), (-9491079123427585, 1294849661688697), (9491079123427585, 1294849661688697)]
  | 8 => some [(-1834346424956498, 3626837833783620), (1834346424956498, 3626837833783620), (-5255324099163290, 3137066458778873), (5255324099163290, 3137066458778873), (-7966664774136267, 2223810344533745), (7966664774136267, 2223810344533745), (-9602898564975363, 1012285362903763), (9602898564975363, 1012285362903763)]
  | 9 => some [(0, 3302393550012598), (-8360311073266358, 1806481606948574), (8360311073266358, 1806481606948574), (-9681602395076261, 812743883615744), (9681602395076261, 812743883615744), (-3242534234038089, 3123470770400029), (3242534234038089, 3123470770400029), (-6133714327005904, 2606106964029354), (6133714327005904, 2606106964029354)]
  | 10 => some [(-1488743389816312, 2955242247147529), (1488743389816312, 2955242247147529), (-4333953941292472, 2692667193099963), (4333953941292472, 2692667193099963), (-6794095682990244, 2190863625159820), (6794095682990244, 2190863625159820), (-8650633666889845, 1494513491505806), (8650633666889845, 1494513491505806), (-9739065285171717, 666713443086881), (9739065285171717, 666713443086881)]
  | 11 => some [(0, 2729250867779006), (-2695431559523450, 2628045445102467), (2695431559523450, 2628045445102467), (-5190961292068118, 2331937645919905), (5190961292068118, 2331937645919905), (-7301520055740494, 1862902109277343), (7301520055740494, 1862902109277343), (-8870625997680953, 1255803694649046), (8870625997680953, 1255803694649046), (-9782286581460570, 556685671161737), (9782286581460570, 556685671161737)]
  | 12 => some [(-1252334085114689, 2491470458134028), (1252334085114689, 2491470458134028), (-3678314989981802, 2334925365383548), (3678314989981802, 2334925365383548), (-5873179542866175, 2031674267230659), (5873179542866175, 2031674267230659), (-7699026741943047, 1600783285433462), (7699026741943047, 1600783285433462), (-9041172563704749, 1069393259953184), (9041172563704749, 1069393259953184), (-9815606342467192, 471753363865118), (9815606342467192, 471753363865118)]
  | 13 => some [(0, 2325515532308739), (-2304583159551348, 2262831802628972), (2304583159551348, 2262831802628972), (-4484927510364469, 2078160475368885), (4484927510364469, 2078160475368885), (-6423493394403402, 1781459807619457), (6423493394403402, 1781459807619457), (-8015780907333099, 1388735102197872), (8015780907333099, 1388735102197872), (-9175983992229779, 921214998377285), (9175983992229779, 921214998377285), (-9841830547185881, 404840047653159), (9841830547185881, 404840047653159)]
  | 14 => some [(-1080549487073437, 2152638534631578), (1080549487073437, 2152638534631578), (-3191123689278897, 2051984637212956), (3191123689278897, 2051984637212956), (-5152486363581541, 1855383974779378), (5152486363581541, 1855383974779378), (-6872929048116855, 1572031671581935), (6872929048116855, 1572031671581935), (-8272013150697650, 1215185706879032), (8272013150697650, 1215185706879032), (-9284348836635735, 801580871597602), (9284348836635735, 801580871597602), (-9862838086968123, 351194603317519), (9862838086968123, 351194603317519)]
  | 15 => some [(0, 2025782419255613), (-2011940939974345, 1984314853271116), (2011940939974345, 1984314853271116), (-3941513470775634, 1861610000155622), (3941513470775634, 1861610000155622), (-5709721726085388, 1662692058169939), (5709721726085388, 1662692058169939), (-7244177313601701, 1395706779261543), (7244177313601701, 1395706779261543), (-8482065834104272, 1071592204671719), (8482065834104272, 1071592204671719), (-9372733924007060, 703660474881081), (9372733924007060, 703660474881081), (-9879925180204854, 307532419961173), (9879925180204854, 307532419961173)]
  | 16 => some [(-950125098376374, 1894506104550685), (950125098376374, 1894506104550685), (-2816035507792589, 1826034150449236), (2816035507792589, 1826034150449236), (-4580167776572274, 1691565193950025), (4580167776572274, 1691565193950025), (-6178762444026438, 1495959888165767), (6178762444026438, 1495959888165767), (-7554044083550030, 1246289712555339), (7554044083550030, 1246289712555339), (-8656312023878318, 951585116824928), (8656312023878318, 951585116824928), (-9445750230732326, 622535239386479), (9445750230732326, 622535239386479), (-9894009349916499, 271524594117541), (9894009349916499, 271524594117541)]
  | 17 => some [(0, 1794464703562065), (-1784841814958479, 1765627053669926), (1784841814958479, 1765627053669926), (-3512317634538763, 1680041021564500), (3512317634538763, 1680041021564500), (-5126905370864769, 1540457610768103), (5126905370864769, 1540457610768103), (-6576711592166907, 1351363684685255), (6576711592166907, 1351363684685255), (-7815140038968014, 1118838471934040), (7815140038968014, 1118838471934040), (-8802391537269859, 850361483171792), (8802391537269859, 850361483171792), (-9506755217687678, 554595293739872), (9506755217687678, 554595293739872), (-9905754753144174, 241483028685479), (9905754753144174, 241483028685479)]
  | 18 => some [(-847750130417353, 1691423829631436), (847750130417353, 1691423829631436), (-2518862256915055, 1642764837458327), (2518862256915055, 1642764837458327), (-4117511614628426, 1546846751262652), (4117511614628426, 1546846751262652), (-5597708310739475, 1406429146706507), (5597708310739475, 1406429146706507), (-6916870430603532, 1225552067114785), (6916870430603532, 1225552067114785), (-8037049589725231, 1009420441062872), (8037049589725231, 1009420441062872), (-8926024664975557, 764257302548891), (8926024664975557, 764257302548891), (-9558239495713977, 497145488949698), (9558239495713977, 497145488949698), (-9915651684209309, 216160135264833), (9915651684209309, 216160135264833)]
  | 19 => some [(0, 1610544498487837), (-1603586456402254, 1589688433939543), (1603586456402254, 1589688433939543), (-3165640999636298, 1527660420658597), (3165640999636298, 1527660420658597), (-4645707413759609, 1426067021736066), (4645707413759609, 1426067021736066), (-6005453046616810, 1287539625393362), (6005453046616810, 1287539625393362), (-7209661773352294, 1115666455473340), (7209661773352294, 1115666455473340), (-8227146565371428, 914900216224500), (8227146565371428, 914900216224500), (-9031559036148179, 690445427376412), (9031559036148179, 690445427376412), (-9602081521348300, 448142267656996), (9602081521348300, 448142267656996), (-9924068438435844, 194617882297265), (9924068438435844, 194617882297265)]
  | 20 => some [(-765265211334973, 1527533871307258), (765265211334973, 1527533871307258), (-2277858511416451, 1491729864726037), (2277858511416451, 1491729864726037), (-3737060887154195, 1420961093183820), (3737060887154195, 1420961093183820), (-5108670019508271, 1316886384491766), (5108670019508271, 1316886384491766), (-6360536807265150, 1181945319615184), (6360536807265150, 1181945319615184), (-7463319064601508, 1019301198172404), (7463319064601508, 1019301198172404), (-8391169718222188, 832767415767048), (8391169718222188, 832767415767048), (-9122344282513259, 626720483341091), (9122344282513259, 626720483341091), (-9639719272779138, 406014298003869), (9639719272779138, 406014298003869), (-9931285991850949, 176140071391521), (9931285991850949, 176140071391521)]
  | _ => none

section
variable {K : Type} [Field K]

/-- `compute_quadrature_sum` (gauss_legendre.hpp:51-98): the sum over the nodes (point, weight). `none`: `static_assert`. -/
def quadratureSum (nodes : List (K × K)) (halfH : K) : (dim : Nat) → (Fin dim → K) → ((Fin dim → K) → K) → Option K
  | 1, c, f => some (nodes.foldl (fun s a => s + f ![halfH * a.1 + c 0] * a.2) 0)
  | 2, c, f => some (nodes.foldl (fun s a => nodes.foldl (fun s b => s + f ![halfH * a.1 + c 0, halfH * b.1 + c 1] * a.2 * b.2) s) 0)
  | 3, c, f => some (nodes.foldl (fun s a => nodes.foldl (fun s b => nodes.foldl
      (fun s d => s + f ![halfH * a.1 + c 0, halfH * b.1 + c 1, halfH * d.1 + c 2] * a.2 * b.2 * d.2) s) s) 0)
  | _, _, _ => none

/-- `GaussLegendre<degree>().quadrature<1>(cell, f)` (gauss_legendre.hpp:30-47). `none` also if the points are not initialized. -/
def gaussQuadrature (degree : Nat) {dim : Nat} (cell : Cell K dim) (f : (Fin dim → K) → K) : Option K :=
  match glTable (glRequired degree) with
  | none => none
  | some t => (quadratureSum (t.map fun a => ((a.1 : K) / 10 ^ 16, (a.2 : K) / 10 ^ 16)) (cell.length / 2) dim cell.center f).map fun s => (cell.length / 2) ^ dim * s

end

end Samurai
