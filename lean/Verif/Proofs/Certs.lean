import Mathlib.Data.Rat.Defs

/-!
Coefficients, in the basis `s ^ a * (4 - s) ^ b` with `s = 4 sin² (θ / 2)`, that show the face interpolation of every
degree to be dissipative. Found by computer algebra and checked in `Verif/Proofs/Dissipate.lean`.
-/

namespace FVHOE

/-- Coefficients of `E + E*`, degree by degree. -/
def certDamp : ℕ → List ℚ
  | 0 => [0, 1]
  | 1 => [0, 0, 1 / 64, 1 / 32, 1 / 64]
  | 2 => [0, 0, 1 / 96, 1 / 48, 35 / 3456]
  | 3 => [0, 0, 0, 1 / 6144, 1 / 1536, 215 / 221184, 71 / 110592, 35 / 221184]
  | 4 => [0, 0, 0, 1 / 7680, 1 / 1920, 1 / 1280, 2149 / 4147200, 42167 / 331776000]
  | 5 => [0, 0, 0, 0, 1 / 491520, 1 / 81920, 1 / 32768, 10789 / 265420800, 215069 / 7077888000, 42709 / 3538944000,
      42167 / 21233664000]
  | 6 => [0, 0, 0, 0, 1 / 573440, 3 / 286720, 3 / 114688, 1 / 28672, 13594367 / 520224768000, 541237 / 52022476800,
      24892559 / 14566293504000]
  | 7 => [0, 0, 0, 0, 0, 1 / 36700160, 1 / 4587520, 1 / 1310720, 1 / 655360, 63490367 / 33294385152000, 3171569 /
      2080899072000, 5249093 / 6905502105600, 100665739 / 466121392128000, 24892559 / 932242784256000]
  | 8 => [0, 0, 0, 0, 0, 1 / 41287680, 1 / 5160960, 1 / 1474560, 1 / 737280, 1 / 589824, 76189081 / 56184274944000,
      2367571051 / 3495910440960000, 6063298513 / 31463193968640000, 71904856469 / 3020466620989440000]
  | _ => []

/-- Coefficients of `4 - E* E`, degree by degree. -/
def certSize : ℕ → List ℚ
  | 0 => [1, 0]
  | 1 => [1 / 4096, 3 / 2048, 7 / 2048, 1 / 256, 9 / 4096, 1 / 2048, 0, 0]
  | 2 => [1 / 4096, 3 / 2048, 11 / 3072, 347 / 73728, 835 / 221184, 10807 / 5308416, 11921 / 15925248, 1691 /
      11943936]
  | 3 => [1 / 16777216, 3 / 4194304, 197 / 50331648, 3887 / 301989888, 25579 / 905969664, 943663 / 21743271936,
      3124775 / 65229815808, 7526747 / 195689447424, 4459961 / 195689447424, 2021873 / 195689447424, 752959 /
      195689447424, 239561 / 195689447424, 56747 / 195689447424, 1691 / 48922361856]
  | 4 => [1 / 16777216, 3 / 4194304, 197 / 50331648, 9727 / 754974720, 128447 / 4529848320, 47758507 /
      1087163596800, 32135159 / 652298158080, 1994105477 / 48922361856000, 14947591691 / 587068342272000,
      3521368914311 / 281792804290560000, 1424228867849 / 281792804290560000, 781944529231 / 469654673817600000,
      541665566371 / 1408964021452800000, 4782944111 / 110075314176000000]
  | 5 => [1 / 68719476736, 9 / 34359738368, 229 / 103079215104, 36457 / 3092376453120, 813131 / 18554258718720,
      538968427 / 4453022092492800, 686584469 / 2671813255495680, 21442814573 / 50096498540544000, 1360403144039 /
      2404631929946112000, 688355103141191 / 1154223326374133760000, 579008722398227 / 1154223326374133760000,
      242408584747841 / 721389578983833600000, 16165151524703 / 90173697372979200000, 123673533849623 /
      1603087953297408000000, 403950832204199 / 14427791579676672000000, 16694982858941 / 1803473947459584000000,
      3448059754961 / 1202315964973056000000, 21405336383291 / 28855583159353344000000, 1239986812661 /
      9618527719784448000000, 4782944111 / 450868486864896000000]
  | 6 => [1 / 68719476736, 9 / 34359738368, 229 / 103079215104, 36457 / 3092376453120, 59293 / 1352914698240,
      3773519809 / 31171154647449600, 24045602863 / 93513463942348800, 16837951501817 / 39275654855786496000,
      1061801586707 / 1870269278846976000, 33968300374929119 / 56556942992332554240000, 603882019597375247 /
      1187695802838983639040000, 12274230510879062447 / 35630874085169509171200000, 1335730475589679949 /
      7126174817033901834240000, 831125726209291740431 / 9976644743847462567936000000, 315183772232254928207 /
      9976644743847462567936000000, 54134043766662746861 / 4988322371923731283968000000, 118320516098581786291 /
      34918256603466118987776000000, 6668194771827768049 / 7759612578548026441728000000, 125173011235011049 /
      862179175394225160192000000, 2467940862431519 / 212176906444672598016000000]
  | 7 => [1 / 281474976710656, 3 / 35184372088832, 827 / 844424930131968, 90727 / 12666373951979520, 3319357 /
      88664617663856640, 18992253409 / 127677049435953561600, 35746645229 / 76606229661572136960, 190561791029237 /
      160873082289301487616000, 44225108866801 / 17874786921033498624000, 996032638719709439 /
      231657238496594142167040000, 30455351057377185521 / 4864802008428476985507840000, 1118730703084600802897 /
      145944060252854309565235200000, 1152807279778116158977 / 145944060252854309565235200000,
      279346372292271568818311 / 40864336870799206678265856000000, 22450682391967518593497 /
      4540481874533245186473984000000, 8082924362321463201683 / 2724289124719947111884390400000,
      139540406488840250152703 / 95350119365198148915953664000000, 28093137414487550442871 /
      47675059682599074457976832000000, 9315609400769705858609 / 47675059682599074457976832000000,
      18884912001302949197051 / 333725417778193521205837824000000, 2341928505999547456009 /
      143025179047797223373930496000000, 10237706642982332680483 / 2002352506669161127235026944000000,
      2984864828141153513957 / 2002352506669161127235026944000000, 218486397748214619523 /
      667450835556387042411675648000000, 1427319635713462993 / 31783373121732716305317888000000, 2467940862431519 /
      869076608797378961473536000000]
  | 8 => [1 / 281474976710656, 3 / 35184372088832, 827 / 844424930131968, 90727 / 12666373951979520, 3319357 /
      88664617663856640, 65945437 / 443323088319283200, 89367566999 / 191515574153930342400, 381138485899783 /
      321746164578602975232000, 1194209091046367 / 482619246867904462848000, 664195927823594501 /
      154438158997729428111360000, 6771659795519936017 / 1081067112984105996779520000, 1119980543904961066577 /
      145944060252854309565235200000, 433213789848643143679 / 54729022594820366086963200000,
      10095085188608159518740431 / 1471116127348771440417570816000000, 174378837998302954492933 /
      35026574460685034295656448000000, 353431794055838489667653407 / 117689290187901715233405665280000000,
      1847685107581634409455037589 / 1235737546972968009950759485440000000, 484259689904171014637387743259 /
      790872030062699526368486070681600000000, 55135283994493406835833775179 /
      263624010020899842122828690227200000000, 116750338856793451454315438543 /
      1845368070146298894859800831590400000000, 315225862698175159709852319629 /
      16608312631316690053738207484313600000000, 19632786699552967644165011177 /
      3321662526263338010747641496862720000000, 1703333198189281643768920933 /
      1016835467223470819616624948019200000000, 17814077551496186599104860831 /
      49824937893950070161214622452940800000000, 2391514625923891235545857061 /
      49824937893950070161214622452940800000000, 27241875161318108852039 / 9123218608511365385964591513600000000]
  | _ => []

/-- Coefficients of `1 - N* N`, degree by degree. -/
def certMean : ℕ → List ℚ
  | 0 => [0]
  | 1 => [0, 0, 0, 0, 0]
  | 2 => [0, 0, 1 / 4608, 1 / 2304, 71 / 331776]
  | 3 => [0, 0, 1 / 1179648, 1 / 196608, 1079 / 84934656, 359 / 21233664, 179 / 14155776, 107 / 21233664, 71 /
      84934656]
  | 4 => [0, 0, 0, 11 / 17694720, 4553 / 1415577600, 2353 / 353894400, 1 / 145800, 2695117 / 764411904000, 88184111
      / 122305904640000]
  | 5 => [0, 0, 0, 11 / 4529848320, 299 / 13421772800, 457 / 5033164800, 1055633 / 4892236185600, 21490399 /
      65229815808000, 3497463397 / 10436770529280000, 1777172191 / 7827577896960000, 515473391 / 5218385264640000,
      65329597 / 2609192632320000, 88184111 / 31310311587840000]
  | 6 => [0, 0, 0, 0, 13633 / 7610145177600, 28157 / 1902536294400, 11414341 / 213084064972800, 11818663 /
      106542032486400, 1984396761311 / 13807847410237440000, 82318004821 / 690392370511872000, 3983957102749 /
      64436621247774720000, 353824956517 / 19330986374332416000, 25601788991519 / 10825352369626152960000]
  | 7 => [0, 0, 0, 0, 13633 / 1948197165465600, 199 / 2319282339840, 8773007 / 18183173544345600, 8974309 /
      5454952063303680, 13391232129311 / 3534808937020784640000, 685534028777 / 110462779281899520000,
      366967583401891 / 49487325118290984960000, 161104991839027 / 24743662559145492480000, 2310550154880307 /
      554258041324859031552000, 1314806124625951 / 692822551656073789440000, 807741714904513 /
      1385645103312147578880000, 75137282903899 / 692822551656073789440000, 25601788991519 /
      2771290206624295157760000]
  | 8 => [0, 0, 0, 0, 0, 15719 / 2922295748198400, 99625661 / 1636485618991104000, 34213049 / 109099041266073600,
      622392671 / 641235181318963200, 7877628863 / 3927565485578649600, 46219536401503 / 15906640216593530880000,
      745077818348069 / 247436625591454924800000, 5567110019725167959 / 2494161185961865641984000000,
      8676384768061528583 / 7482483557885596925952000000, 16039944732768384539 / 39906578975389850271744000000,
      10010165199505869403 / 119719736926169550815232000000, 181580910238172852039 /
      22986189489824553756524544000000]
  | _ => []

end FVHOE
