import Verif.Model.NamedCodes
import Verif.Lemmas.MaskCodes

/-! # Certificates for the named codes: reduced rows, kernel bases and logical operators (computed
outside, checked by the kernel in `Props/NamedCodes`). -/

namespace Verif.Named

def steaneCert : Cert :=
  ⟨[(0, 85, 2), (1, 102, 3), (3, 120, 4)],
   [(2, 7), (4, 25), (5, 42), (6, 75)],
   [(0, 85, 2), (1, 102, 3), (3, 120, 4)],
   [(2, 7), (4, 25), (5, 42), (6, 75)],
   7, 7, 7, 7⟩

def tetrahedralCert : Cert :=
  ⟨[(0, 7113, 3), (1, 19882, 14), (2, 11884, 4), (4, 30960, 8)],
   [(3, 15), (5, 54), (6, 85), (7, 147), (8, 259), (9, 517), (10, 1030), (11, 2071), (12, 4113), (13, 8212), (14, 16402)],
   [(0, 9345, 363), (1, 29826, 742), (2, 5252, 236), (3, 17544, 864), (4, 20624, 896), (5, 12448, 392), (6, 24768, 512), (8, 13568, 374), (9, 22016, 972), (11, 30720, 648)],
   [(7, 255), (10, 1807), (12, 6966), (13, 10595), (14, 19034)],
   1807, 259, 259, 1807⟩

def hammingCert : Cert :=
  ⟨[(0, 21845, 8), (1, 26214, 4), (3, 30840, 2), (7, 32640, 1)],
   [(2, 7), (4, 25), (5, 42), (6, 75), (8, 385), (9, 642), (10, 1155), (11, 2184), (12, 4233), (13, 8330), (14, 16523)],
   [(0, 21845, 8), (1, 26214, 4), (3, 30840, 2), (7, 32640, 1)],
   [(2, 7), (4, 25), (5, 42), (6, 75), (8, 385), (9, 642), (10, 1155), (11, 2184), (12, 4233), (13, 8330), (14, 16523)],
   7, 7, 7, 7⟩

def shorCert : Cert :=
  ⟨[(0, 455, 2), (3, 504, 3)],
   [(1, 3), (2, 5), (4, 24), (5, 40), (6, 73), (7, 137), (8, 265)],
   [(0, 5, 2), (1, 6, 3), (3, 40, 8), (4, 48, 12), (6, 320, 32), (7, 384, 48)],
   [(2, 7), (5, 56), (8, 448)],
   7, 73, 73, 7⟩

def golayCert : Cert :=
  ⟨[(0, 7940097, 591), (1, 751618, 1896), (2, 1503236, 1972), (3, 3006472, 986), (4, 6012944, 493), (5, 5154848, 697), (6, 6584384, 1811), (7, 3266688, 1478), (8, 6533376, 1763), (9, 4082176, 318), (10, 8164352, 1183)],
   [(11, 2787), (12, 5574), (13, 8559), (14, 17118), (15, 34236), (16, 65947), (17, 131894), (18, 263788), (19, 525883), (20, 1050261), (21, 2099145), (22, 4195697)],
   [(0, 7940097, 591), (1, 751618, 1896), (2, 1503236, 1972), (3, 3006472, 986), (4, 6012944, 493), (5, 5154848, 697), (6, 6584384, 1811), (7, 3266688, 1478), (8, 6533376, 1763), (9, 4082176, 318), (10, 8164352, 1183)],
   [(11, 2787), (12, 5574), (13, 8559), (14, 17118), (15, 34236), (16, 65947), (17, 131894), (18, 263788), (19, 525883), (20, 1050261), (21, 2099145), (22, 4195697)],
   2787, 2787, 2787, 2787⟩

def surface3Cert : Cert :=
  ⟨[(0, 483, 13), (2, 36, 2), (3, 72, 8), (4, 432, 4)],
   [(1, 3), (5, 53), (6, 73), (7, 145), (8, 273)],
   [(0, 53, 3), (1, 54, 2), (3, 344, 12), (7, 384, 8)],
   [(2, 7), (4, 27), (5, 35), (6, 72), (8, 392)],
   7, 73, 73, 7⟩

def surface5Cert : Cert :=
  ⟨[(0, 807505, 175), (1, 807506, 174), (2, 788, 12), (3, 792, 8), (5, 21304416, 2640), (7, 807296, 160), (11, 21305344, 2624), (13, 811008, 128), (15, 5341184, 1280), (17, 21364736, 2560), (21, 6291456, 1024), (23, 25165824, 2048)],
   [(4, 31), (6, 99), (8, 396), (9, 527), (10, 1056), (12, 6307), (14, 24707), (16, 100384), (18, 403619), (19, 532611), (20, 1081344), (22, 6457376), (24, 25298976)],
   [(0, 33038467, 3801), (2, 533132, 290), (4, 528, 4), (5, 7473184, 1608), (6, 25831616, 2192), (8, 533248, 288), (10, 7474176, 1600), (12, 25833472, 2176), (14, 540672, 256), (15, 1081344, 512), (16, 6488064, 1024), (18, 25952256, 2048)],
   [(1, 3), (3, 12), (7, 197), (9, 788), (11, 3168), (13, 12613), (17, 201824), (19, 807237), (20, 1082401), (21, 2163745), (22, 4260897), (23, 8654913), (24, 17043521)],
   1082401, 31, 31, 1082401⟩

def carbonCert : Cert :=
  ⟨[(0, 945, 20), (1, 1170, 30), (2, 2340, 27), (3, 3640, 25), (6, 4032, 16)],
   [(4, 27), (5, 45), (7, 195), (8, 325), (9, 585), (10, 1098), (11, 2124)],
   [(0, 3745, 20), (1, 994, 13), (2, 2340, 29), (3, 3304, 10), (4, 1904, 22)],
   [(5, 63), (6, 90), (7, 139), (8, 278), (9, 531), (10, 1049), (11, 2061)],
   90, 27, 27, 90⟩

end Verif.Named
