import Verif.Base.Sem

/-! # Pratt certificates for the prime table (produced by a program, checked in `Proofs/Primes`) -/

namespace EvalRound

/-- `(p, a, [(f, e)])`: `a` is a primitive root modulo `p` and `p - 1 = ∏ f^e`. -/
def prattCerts : List (Nat × Nat × List (Nat × Nat)) := [
  (3, 2, [(2, 1)]),
  (5, 2, [(2, 2)]),
  (7, 3, [(2, 1), (3, 1)]),
  (11, 2, [(2, 1), (5, 1)]),
  (13, 2, [(2, 2), (3, 1)]),
  (17, 3, [(2, 4)]),
  (19, 2, [(2, 1), (3, 2)]),
  (23, 5, [(2, 1), (11, 1)]),
  (29, 2, [(2, 2), (7, 1)]),
  (31, 3, [(2, 1), (3, 1), (5, 1)]),
  (37, 2, [(2, 2), (3, 2)]),
  (41, 6, [(2, 3), (5, 1)]),
  (43, 3, [(2, 1), (3, 1), (7, 1)]),
  (47, 5, [(2, 1), (23, 1)]),
  (53, 2, [(2, 2), (13, 1)]),
  (59, 2, [(2, 1), (29, 1)]),
  (61, 2, [(2, 2), (3, 1), (5, 1)]),
  (67, 2, [(2, 1), (3, 1), (11, 1)]),
  (71, 7, [(2, 1), (5, 1), (7, 1)]),
  (73, 5, [(2, 3), (3, 2)]),
  (79, 3, [(2, 1), (3, 1), (13, 1)]),
  (83, 2, [(2, 1), (41, 1)]),
  (89, 3, [(2, 3), (11, 1)]),
  (97, 5, [(2, 5), (3, 1)]),
  (101, 2, [(2, 2), (5, 2)]),
  (103, 5, [(2, 1), (3, 1), (17, 1)]),
  (107, 2, [(2, 1), (53, 1)]),
  (109, 6, [(2, 2), (3, 3)]),
  (113, 3, [(2, 4), (7, 1)]),
  (127, 3, [(2, 1), (3, 2), (7, 1)]),
  (131, 2, [(2, 1), (5, 1), (13, 1)]),
  (137, 3, [(2, 3), (17, 1)]),
  (139, 2, [(2, 1), (3, 1), (23, 1)]),
  (149, 2, [(2, 2), (37, 1)]),
  (151, 6, [(2, 1), (3, 1), (5, 2)]),
  (157, 5, [(2, 2), (3, 1), (13, 1)]),
  (163, 2, [(2, 1), (3, 4)]),
  (167, 5, [(2, 1), (83, 1)]),
  (173, 2, [(2, 2), (43, 1)]),
  (179, 2, [(2, 1), (89, 1)]),
  (181, 2, [(2, 2), (3, 2), (5, 1)]),
  (191, 19, [(2, 1), (5, 1), (19, 1)]),
  (193, 5, [(2, 6), (3, 1)]),
  (199, 3, [(2, 1), (3, 2), (11, 1)]),
  (211, 2, [(2, 1), (3, 1), (5, 1), (7, 1)]),
  (223, 3, [(2, 1), (3, 1), (37, 1)]),
  (227, 2, [(2, 1), (113, 1)]),
  (229, 6, [(2, 2), (3, 1), (19, 1)]),
  (233, 3, [(2, 3), (29, 1)]),
  (239, 7, [(2, 1), (7, 1), (17, 1)]),
  (241, 7, [(2, 4), (3, 1), (5, 1)]),
  (251, 6, [(2, 1), (5, 3)]),
  (257, 3, [(2, 8)]),
  (269, 2, [(2, 2), (67, 1)]),
  (271, 6, [(2, 1), (3, 3), (5, 1)]),
  (277, 5, [(2, 2), (3, 1), (23, 1)]),
  (281, 3, [(2, 3), (5, 1), (7, 1)]),
  (283, 3, [(2, 1), (3, 1), (47, 1)]),
  (307, 5, [(2, 1), (3, 2), (17, 1)]),
  (313, 10, [(2, 3), (3, 1), (13, 1)]),
  (317, 2, [(2, 2), (79, 1)]),
  (331, 3, [(2, 1), (3, 1), (5, 1), (11, 1)]),
  (337, 10, [(2, 4), (3, 1), (7, 1)]),
  (347, 2, [(2, 1), (173, 1)]),
  (349, 2, [(2, 2), (3, 1), (29, 1)]),
  (353, 3, [(2, 5), (11, 1)]),
  (359, 7, [(2, 1), (179, 1)]),
  (367, 6, [(2, 1), (3, 1), (61, 1)]),
  (373, 2, [(2, 2), (3, 1), (31, 1)]),
  (383, 5, [(2, 1), (191, 1)]),
  (389, 2, [(2, 2), (97, 1)]),
  (397, 5, [(2, 2), (3, 2), (11, 1)]),
  (409, 21, [(2, 3), (3, 1), (17, 1)]),
  (421, 2, [(2, 2), (3, 1), (5, 1), (7, 1)]),
  (431, 7, [(2, 1), (5, 1), (43, 1)]),
  (439, 15, [(2, 1), (3, 1), (73, 1)]),
  (457, 13, [(2, 3), (3, 1), (19, 1)]),
  (461, 2, [(2, 2), (5, 1), (23, 1)]),
  (479, 13, [(2, 1), (239, 1)]),
  (491, 2, [(2, 1), (5, 1), (7, 2)]),
  (499, 7, [(2, 1), (3, 1), (83, 1)]),
  (509, 2, [(2, 2), (127, 1)]),
  (521, 3, [(2, 3), (5, 1), (13, 1)]),
  (523, 2, [(2, 1), (3, 2), (29, 1)]),
  (541, 2, [(2, 2), (3, 3), (5, 1)]),
  (563, 2, [(2, 1), (281, 1)]),
  (569, 3, [(2, 3), (71, 1)]),
  (571, 3, [(2, 1), (3, 1), (5, 1), (19, 1)]),
  (593, 3, [(2, 4), (37, 1)]),
  (601, 7, [(2, 3), (3, 1), (5, 2)]),
  (607, 3, [(2, 1), (3, 1), (101, 1)]),
  (613, 2, [(2, 2), (3, 2), (17, 1)]),
  (647, 5, [(2, 1), (17, 1), (19, 1)]),
  (659, 2, [(2, 1), (7, 1), (47, 1)]),
  (691, 3, [(2, 1), (3, 1), (5, 1), (23, 1)]),
  (709, 2, [(2, 2), (3, 1), (59, 1)]),
  (719, 11, [(2, 1), (359, 1)]),
  (727, 5, [(2, 1), (3, 1), (11, 2)]),
  (733, 6, [(2, 2), (3, 1), (61, 1)]),
  (739, 3, [(2, 1), (3, 2), (41, 1)]),
  (743, 5, [(2, 1), (7, 1), (53, 1)]),
  (773, 2, [(2, 2), (193, 1)]),
  (787, 2, [(2, 1), (3, 1), (131, 1)]),
  (809, 3, [(2, 3), (101, 1)]),
  (823, 3, [(2, 1), (3, 1), (137, 1)]),
  (859, 2, [(2, 1), (3, 1), (11, 1), (13, 1)]),
  (863, 5, [(2, 1), (431, 1)]),
  (911, 17, [(2, 1), (5, 1), (7, 1), (13, 1)]),
  (937, 5, [(2, 3), (3, 2), (13, 1)]),
  (941, 2, [(2, 2), (5, 1), (47, 1)]),
  (953, 3, [(2, 3), (7, 1), (17, 1)]),
  (977, 3, [(2, 4), (61, 1)]),
  (983, 5, [(2, 1), (491, 1)]),
  (1009, 11, [(2, 4), (3, 2), (7, 1)]),
  (1019, 2, [(2, 1), (509, 1)]),
  (1031, 14, [(2, 1), (5, 1), (103, 1)]),
  (1033, 5, [(2, 3), (3, 1), (43, 1)]),
  (1049, 3, [(2, 3), (131, 1)]),
  (1091, 2, [(2, 1), (5, 1), (109, 1)]),
  (1093, 5, [(2, 2), (3, 1), (7, 1), (13, 1)]),
  (1109, 2, [(2, 2), (277, 1)]),
  (1117, 2, [(2, 2), (3, 2), (31, 1)]),
  (1151, 17, [(2, 1), (5, 2), (23, 1)]),
  (1163, 5, [(2, 1), (7, 1), (83, 1)]),
  (1259, 2, [(2, 1), (17, 1), (37, 1)]),
  (1327, 3, [(2, 1), (3, 1), (13, 1), (17, 1)]),
  (1381, 2, [(2, 2), (3, 1), (5, 1), (23, 1)]),
  (1439, 7, [(2, 1), (719, 1)]),
  (1451, 2, [(2, 1), (5, 2), (29, 1)]),
  (1471, 6, [(2, 1), (3, 1), (5, 1), (7, 2)]),
  (1483, 2, [(2, 1), (3, 1), (13, 1), (19, 1)]),
  (1489, 14, [(2, 4), (3, 1), (31, 1)]),
  (1499, 2, [(2, 1), (7, 1), (107, 1)]),
  (1511, 11, [(2, 1), (5, 1), (151, 1)]),
  (1571, 2, [(2, 1), (5, 1), (157, 1)]),
  (1607, 5, [(2, 1), (11, 1), (73, 1)]),
  (1613, 3, [(2, 2), (13, 1), (31, 1)]),
  (1619, 2, [(2, 1), (809, 1)]),
  (1627, 3, [(2, 1), (3, 1), (271, 1)]),
  (1637, 2, [(2, 2), (409, 1)]),
  (1669, 2, [(2, 2), (3, 1), (139, 1)]),
  (1699, 3, [(2, 1), (3, 1), (283, 1)]),
  (1723, 3, [(2, 1), (3, 1), (7, 1), (41, 1)]),
  (1777, 5, [(2, 4), (3, 1), (37, 1)]),
  (1811, 6, [(2, 1), (5, 1), (181, 1)]),
  (1847, 5, [(2, 1), (13, 1), (71, 1)]),
  (1861, 2, [(2, 2), (3, 1), (5, 1), (31, 1)]),
  (1879, 6, [(2, 1), (3, 1), (313, 1)]),
  (1901, 2, [(2, 2), (5, 2), (19, 1)]),
  (1931, 2, [(2, 1), (5, 1), (193, 1)]),
  (1973, 2, [(2, 2), (17, 1), (29, 1)]),
  (1993, 5, [(2, 3), (3, 1), (83, 1)]),
  (2039, 7, [(2, 1), (1019, 1)]),
  (2083, 2, [(2, 1), (3, 1), (347, 1)]),
  (2089, 7, [(2, 3), (3, 2), (29, 1)]),
  (2099, 2, [(2, 1), (1049, 1)]),
  (2141, 2, [(2, 2), (5, 1), (107, 1)]),
  (2251, 7, [(2, 1), (3, 2), (5, 3)]),
  (2377, 5, [(2, 3), (3, 3), (11, 1)]),
  (2399, 11, [(2, 1), (11, 1), (109, 1)]),
  (2531, 2, [(2, 1), (5, 1), (11, 1), (23, 1)]),
  (2711, 7, [(2, 1), (5, 1), (271, 1)]),
  (2851, 2, [(2, 1), (3, 1), (5, 2), (19, 1)]),
  (2879, 7, [(2, 1), (1439, 1)]),
  (3023, 5, [(2, 1), (1511, 1)]),
  (3313, 10, [(2, 4), (3, 2), (23, 1)]),
  (3359, 11, [(2, 1), (23, 1), (73, 1)]),
  (3557, 2, [(2, 2), (7, 1), (127, 1)]),
  (3613, 2, [(2, 2), (3, 1), (7, 1), (43, 1)]),
  (3823, 3, [(2, 1), (3, 1), (7, 2), (13, 1)]),
  (3947, 2, [(2, 1), (1973, 1)]),
  (4003, 2, [(2, 1), (3, 1), (23, 1), (29, 1)]),
  (4091, 2, [(2, 1), (5, 1), (409, 1)]),
  (4283, 2, [(2, 1), (2141, 1)]),
  (4297, 5, [(2, 3), (3, 1), (179, 1)]),
  (4373, 2, [(2, 2), (1093, 1)]),
  (4513, 7, [(2, 5), (3, 1), (47, 1)]),
  (4721, 6, [(2, 4), (5, 1), (59, 1)]),
  (4831, 3, [(2, 1), (3, 1), (5, 1), (7, 1), (23, 1)]),
  (4969, 11, [(2, 3), (3, 3), (23, 1)]),
  (4993, 5, [(2, 7), (3, 1), (13, 1)]),
  (5051, 2, [(2, 1), (5, 2), (101, 1)]),
  (5333, 2, [(2, 2), (31, 1), (43, 1)]),
  (5419, 3, [(2, 1), (3, 2), (7, 1), (43, 1)]),
  (5479, 3, [(2, 1), (3, 1), (11, 1), (83, 1)]),
  (5647, 3, [(2, 1), (3, 1), (941, 1)]),
  (5953, 7, [(2, 6), (3, 1), (31, 1)]),
  (6199, 3, [(2, 1), (3, 1), (1033, 1)]),
  (6359, 13, [(2, 1), (11, 1), (17, 2)]),
  (6571, 3, [(2, 1), (3, 2), (5, 1), (73, 1)]),
  (6737, 3, [(2, 4), (421, 1)]),
  (6793, 10, [(2, 3), (3, 1), (283, 1)]),
  (6833, 3, [(2, 4), (7, 1), (61, 1)]),
  (6947, 2, [(2, 1), (23, 1), (151, 1)]),
  (6991, 6, [(2, 1), (3, 1), (5, 1), (233, 1)]),
  (7193, 3, [(2, 3), (29, 1), (31, 1)]),
  (8171, 2, [(2, 1), (5, 1), (19, 1), (43, 1)]),
  (8329, 7, [(2, 3), (3, 1), (347, 1)]),
  (8597, 2, [(2, 2), (7, 1), (307, 1)]),
  (8627, 2, [(2, 1), (19, 1), (227, 1)]),
  (8933, 2, [(2, 2), (7, 1), (11, 1), (29, 1)]),
  (9221, 2, [(2, 2), (5, 1), (461, 1)]),
  (9883, 2, [(2, 1), (3, 4), (61, 1)]),
  (9941, 2, [(2, 2), (5, 1), (7, 1), (71, 1)]),
  (10667, 2, [(2, 1), (5333, 1)]),
  (11243, 5, [(2, 1), (7, 1), (11, 1), (73, 1)]),
  (11299, 3, [(2, 1), (3, 1), (7, 1), (269, 1)]),
  (11587, 2, [(2, 1), (3, 1), (1931, 1)]),
  (11597, 3, [(2, 2), (13, 1), (223, 1)]),
  (11839, 3, [(2, 1), (3, 1), (1973, 1)]),
  (11927, 5, [(2, 1), (67, 1), (89, 1)]),
  (11987, 2, [(2, 1), (13, 1), (461, 1)]),
  (12037, 5, [(2, 2), (3, 1), (17, 1), (59, 1)]),
  (12301, 2, [(2, 2), (3, 1), (5, 2), (41, 1)]),
  (14387, 2, [(2, 1), (7193, 1)]),
  (14747, 2, [(2, 1), (73, 1), (101, 1)]),
  (15101, 2, [(2, 2), (5, 2), (151, 1)]),
  (17137, 5, [(2, 4), (3, 2), (7, 1), (17, 1)]),
  (17911, 3, [(2, 1), (3, 2), (5, 1), (199, 1)]),
  (17989, 2, [(2, 2), (3, 1), (1499, 1)]),
  (19391, 11, [(2, 1), (5, 1), (7, 1), (277, 1)]),
  (20071, 3, [(2, 1), (3, 2), (5, 1), (223, 1)]),
  (20101, 6, [(2, 2), (3, 1), (5, 2), (67, 1)]),
  (21191, 7, [(2, 1), (5, 1), (13, 1), (163, 1)]),
  (21481, 13, [(2, 3), (3, 1), (5, 1), (179, 1)]),
  (24547, 2, [(2, 1), (3, 1), (4091, 1)]),
  (28279, 3, [(2, 1), (3, 2), (1571, 1)]),
  (29641, 7, [(2, 3), (3, 1), (5, 1), (13, 1), (19, 1)]),
  (29959, 6, [(2, 1), (3, 1), (4993, 1)]),
  (30203, 2, [(2, 1), (15101, 1)]),
  (34439, 11, [(2, 1), (67, 1), (257, 1)]),
  (36061, 2, [(2, 2), (3, 1), (5, 1), (601, 1)]),
  (37379, 2, [(2, 1), (11, 1), (1699, 1)]),
  (37657, 5, [(2, 3), (3, 2), (523, 1)]),
  (40351, 3, [(2, 1), (3, 1), (5, 2), (269, 1)]),
  (40949, 2, [(2, 2), (29, 1), (353, 1)]),
  (46349, 2, [(2, 2), (11587, 1)]),
  (50599, 3, [(2, 1), (3, 3), (937, 1)]),
  (57973, 5, [(2, 2), (3, 1), (4831, 1)]),
  (60589, 2, [(2, 2), (3, 4), (11, 1), (17, 1)]),
  (74759, 11, [(2, 1), (37379, 1)]),
  (85639, 3, [(2, 1), (3, 1), (7, 1), (2039, 1)]),
  (88817, 3, [(2, 4), (7, 1), (13, 1), (61, 1)]),
  (91009, 11, [(2, 7), (3, 2), (79, 1)]),
  (95819, 2, [(2, 1), (23, 1), (2083, 1)]),
  (96221, 2, [(2, 2), (5, 1), (17, 1), (283, 1)]),
  (105137, 3, [(2, 4), (6571, 1)]),
  (107927, 5, [(2, 1), (7, 1), (13, 1), (593, 1)]),
  (116131, 2, [(2, 1), (3, 1), (5, 1), (7, 2), (79, 1)]),
  (117883, 2, [(2, 1), (3, 3), (37, 1), (59, 1)]),
  (120779, 2, [(2, 1), (7, 1), (8627, 1)]),
  (130051, 3, [(2, 1), (3, 2), (5, 2), (17, 2)]),
  (137201, 3, [(2, 4), (5, 2), (7, 3)]),
  (144161, 3, [(2, 5), (5, 1), (17, 1), (53, 1)]),
  (149519, 13, [(2, 1), (74759, 1)]),
  (157109, 2, [(2, 2), (7, 1), (31, 1), (181, 1)]),
  (157163, 2, [(2, 1), (179, 1), (439, 1)]),
  (163487, 5, [(2, 1), (43, 1), (1901, 1)]),
  (171029, 2, [(2, 2), (11, 1), (13, 2), (23, 1)]),
  (178501, 6, [(2, 2), (3, 1), (5, 3), (7, 1), (17, 1)]),
  (184631, 13, [(2, 1), (5, 1), (37, 1), (499, 1)]),
  (187877, 2, [(2, 2), (13, 1), (3613, 1)]),
  (202493, 2, [(2, 2), (23, 1), (31, 1), (71, 1)]),
  (208459, 10, [(2, 1), (3, 2), (37, 1), (313, 1)]),
  (215767, 3, [(2, 1), (3, 2), (11987, 1)]),
  (242819, 2, [(2, 1), (167, 1), (727, 1)]),
  (245471, 7, [(2, 1), (5, 1), (24547, 1)]),
  (263023, 3, [(2, 1), (3, 1), (59, 1), (743, 1)]),
  (282833, 3, [(2, 4), (11, 1), (1607, 1)]),
  (283007, 5, [(2, 1), (71, 1), (1993, 1)]),
  (284527, 3, [(2, 1), (3, 3), (11, 1), (479, 1)]),
  (296363, 5, [(2, 1), (11, 1), (19, 1), (709, 1)]),
  (299417, 3, [(2, 3), (13, 1), (2879, 1)]),
  (303367, 5, [(2, 1), (3, 1), (7, 1), (31, 1), (233, 1)]),
  (308467, 2, [(2, 1), (3, 2), (17137, 1)]),
  (315893, 2, [(2, 2), (151, 1), (523, 1)]),
  (342059, 2, [(2, 1), (171029, 1)]),
  (342371, 2, [(2, 1), (5, 1), (7, 1), (67, 1), (73, 1)]),
  (369263, 5, [(2, 1), (184631, 1)]),
  (384697, 5, [(2, 3), (3, 3), (13, 1), (137, 1)]),
  (397897, 7, [(2, 3), (3, 1), (59, 1), (281, 1)]),
  (445699, 2, [(2, 1), (3, 2), (11, 1), (2251, 1)]),
  (509623, 3, [(2, 1), (3, 1), (157, 1), (541, 1)]),
  (540689, 3, [(2, 4), (47, 1), (719, 1)]),
  (572321, 3, [(2, 5), (5, 1), (7, 2), (73, 1)]),
  (652279, 12, [(2, 1), (3, 1), (11, 1), (9883, 1)]),
  (719239, 3, [(2, 1), (3, 1), (13, 1), (9221, 1)]),
  (796339, 3, [(2, 1), (3, 3), (14747, 1)]),
  (832339, 2, [(2, 1), (3, 2), (13, 1), (3557, 1)]),
  (942979, 2, [(2, 1), (3, 1), (157163, 1)]),
  (1048583, 5, [(2, 1), (29, 1), (101, 1), (179, 1)]),
  (1065511, 13, [(2, 1), (3, 2), (5, 1), (11839, 1)]),
  (1223179, 2, [(2, 1), (3, 1), (11, 1), (43, 1), (431, 1)]),
  (1310369, 3, [(2, 5), (40949, 1)]),
  (1341467, 5, [(2, 1), (7, 1), (95819, 1)]),
  (1397059, 3, [(2, 1), (3, 1), (13, 1), (17911, 1)]),
  (1759349, 2, [(2, 2), (569, 1), (773, 1)]),
  (1782797, 2, [(2, 2), (445699, 1)]),
  (1787911, 3, [(2, 1), (3, 1), (5, 1), (61, 1), (977, 1)]),
  (1850803, 2, [(2, 1), (3, 1), (308467, 1)]),
  (2088013, 2, [(2, 2), (3, 1), (191, 1), (911, 1)]),
  (2097131, 2, [(2, 1), (5, 1), (7, 1), (29959, 1)]),
  (2116397, 2, [(2, 2), (53, 1), (67, 1), (149, 1)]),
  (2194739, 2, [(2, 1), (7, 1), (13, 1), (31, 1), (389, 1)]),
  (2263633, 10, [(2, 4), (3, 1), (7, 1), (6737, 1)]),
  (2308183, 3, [(2, 1), (3, 1), (384697, 1)]),
  (2387383, 5, [(2, 1), (3, 1), (397897, 1)]),
  (2394313, 5, [(2, 3), (3, 1), (67, 1), (1489, 1)]),
  (2546837, 2, [(2, 2), (19, 1), (23, 1), (31, 1), (47, 1)]),
  (2790497, 3, [(2, 5), (29, 1), (31, 1), (97, 1)]),
  (2882543, 5, [(2, 1), (13, 1), (29, 1), (3823, 1)]),
  (2970509, 2, [(2, 2), (37, 1), (20071, 1)]),
  (3033671, 11, [(2, 1), (5, 1), (303367, 1)]),
  (3189299, 2, [(2, 1), (7, 1), (157, 1), (1451, 1)]),
  (3263389, 2, [(2, 2), (3, 1), (17, 2), (941, 1)]),
  (3422567, 5, [(2, 1), (7, 1), (151, 1), (1619, 1)]),
  (3518699, 2, [(2, 1), (1759349, 1)]),
  (3596419, 3, [(2, 1), (3, 2), (7, 1), (17, 1), (23, 1), (73, 1)]),
  (3606727, 3, [(2, 1), (3, 1), (31, 1), (19391, 1)]),
  (3864349, 6, [(2, 2), (3, 4), (11927, 1)]),
  (3956501, 2, [(2, 2), (5, 3), (41, 1), (193, 1)]),
  (4158893, 2, [(2, 2), (953, 1), (1091, 1)]),
  (4390433, 3, [(2, 5), (137201, 1)]),
  (4663433, 3, [(2, 3), (29, 1), (20101, 1)]),
  (5765087, 5, [(2, 1), (2882543, 1)]),
  (5996047, 3, [(2, 1), (3, 1), (7, 1), (367, 1), (389, 1)]),
  (6393067, 2, [(2, 1), (3, 1), (1065511, 1)]),
  (7112713, 5, [(2, 3), (3, 1), (296363, 1)]),
  (7827349, 6, [(2, 2), (3, 1), (652279, 1)]),
  (8317787, 2, [(2, 1), (4158893, 1)]),
  (8323391, 13, [(2, 1), (5, 1), (832339, 1)]),
  (8780867, 2, [(2, 1), (4390433, 1)]),
  (8792857, 5, [(2, 3), (3, 2), (97, 1), (1259, 1)]),
  (9233929, 7, [(2, 3), (3, 2), (11, 1), (89, 1), (131, 1)]),
  (9596017, 11, [(2, 4), (3, 3), (97, 1), (229, 1)]),
  (10696783, 3, [(2, 1), (3, 1), (1782797, 1)]),
  (12857567, 5, [(2, 1), (19, 1), (79, 1), (4283, 1)]),
  (13818689, 6, [(2, 6), (13, 1), (17, 1), (977, 1)]),
  (14386241, 3, [(2, 6), (5, 1), (11, 1), (61, 1), (67, 1)]),
  (15281023, 5, [(2, 1), (3, 1), (2546837, 1)]),
  (15391993, 5, [(2, 3), (3, 1), (7, 1), (11, 1), (8329, 1)]),
  (17327423, 5, [(2, 1), (7, 1), (607, 1), (2039, 1)]),
  (17557913, 3, [(2, 3), (2194739, 1)]),
  (21097897, 5, [(2, 3), (3, 1), (787, 1), (1117, 1)]),
  (24269369, 3, [(2, 3), (3033671, 1)]),
  (25781083, 5, [(2, 1), (3, 1), (37, 1), (116131, 1)]),
  (27980599, 3, [(2, 1), (3, 1), (4663433, 1)]),
  (29414633, 3, [(2, 3), (13, 1), (282833, 1)]),
  (32330257, 5, [(2, 4), (3, 1), (7, 1), (96221, 1)]),
  (35171429, 2, [(2, 2), (8792857, 1)]),
  (43157029, 7, [(2, 2), (3, 1), (3596419, 1)]),
  (49518071, 13, [(2, 1), (5, 1), (7, 1), (383, 1), (1847, 1)]),
  (60559133, 2, [(2, 2), (41, 1), (369263, 1)]),
  (73738289, 6, [(2, 4), (13, 1), (241, 1), (1471, 1)]),
  (97697459, 2, [(2, 1), (199, 1), (245471, 1)]),
  (121118267, 2, [(2, 1), (60559133, 1)]),
  (124070371, 2, [(2, 1), (3, 1), (5, 1), (31, 1), (71, 1), (1879, 1)]),
  (167149837, 2, [(2, 2), (3, 2), (7, 1), (107, 1), (6199, 1)]),
  (194621051, 2, [(2, 1), (5, 2), (13, 1), (299417, 1)]),
  (194905673, 5, [(2, 3), (13, 2), (144161, 1)]),
  (203849201, 6, [(2, 4), (5, 2), (509623, 1)]),
  (209700401, 3, [(2, 4), (5, 2), (7, 2), (13, 1), (823, 1)]),
  (269603783, 5, [(2, 1), (7, 2), (17, 1), (41, 1), (3947, 1)]),
  (603298561, 7, [(2, 8), (3, 1), (5, 1), (157109, 1)]),
  (724674001, 11, [(2, 4), (3, 1), (5, 3), (120779, 1)]),
  (810849283, 2, [(2, 1), (3, 1), (19, 1), (7112713, 1)]),
  (883319243, 2, [(2, 1), (13, 1), (733, 1), (46349, 1)]),
  (1282229303, 5, [(2, 1), (37, 1), (17327423, 1)]),
  (2564458607, 5, [(2, 1), (1282229303, 1)]),
  (2848475719, 3, [(2, 1), (3, 2), (11, 1), (14386241, 1)]),
  (2854021097, 3, [(2, 3), (149, 1), (2394313, 1)]),
  (3479467177, 5, [(2, 3), (3, 2), (3359, 1), (14387, 1)]),
  (4358817157, 2, [(2, 2), (3, 1), (1381, 1), (263023, 1)]),
  (4571773919, 11, [(2, 1), (31, 1), (73738289, 1)]),
  (5638521169, 11, [(2, 4), (3, 2), (7, 1), (19, 1), (37, 1), (73, 1), (109, 1)]),
  (6032985611, 6, [(2, 1), (5, 1), (603298561, 1)]),
  (9666036287, 5, [(2, 1), (1627, 1), (2970509, 1)]),
  (14709185657, 3, [(2, 3), (11, 1), (167149837, 1)]),
  (17522097653, 2, [(2, 2), (317, 1), (13818689, 1)]),
  (22554084677, 2, [(2, 2), (5638521169, 1)]),
  (36650387593, 5, [(2, 3), (3, 2), (7, 1), (13, 1), (19, 1), (37, 1), (73, 1), (109, 1)]),
  (51741723673, 15, [(2, 3), (3, 5), (29, 1), (569, 1), (1613, 1)]),
  (74543161211, 10, [(2, 1), (5, 1), (7, 1), (28279, 1), (37657, 1)]),
  (97734366929, 6, [(2, 4), (11, 1), (199, 1), (2790497, 1)]),
  (146601550393, 5, [(2, 3), (3, 1), (11, 1), (199, 1), (2790497, 1)]),
  (183251938003, 7, [(2, 1), (3, 1), (7, 1), (5479, 1), (796339, 1)]),
  (293203100797, 2, [(2, 2), (3, 1), (739, 1), (2851, 1), (11597, 1)]),
  (366503875943, 5, [(2, 1), (17, 1), (89, 1), (121118267, 1)]),
  (733007751857, 3, [(2, 4), (1777, 1), (25781083, 1)]),
  (733007751887, 5, [(2, 1), (366503875943, 1)]),
  (879609302321, 3, [(2, 4), (5, 1), (7, 1), (397, 1), (3956501, 1)]),
  (1099511627791, 3, [(2, 1), (3, 1), (5, 1), (36650387593, 1)]),
  (1466015503613, 2, [(2, 2), (11, 1), (4003, 1), (8323391, 1)]),
  (1466015503879, 15, [(2, 1), (3, 4), (137, 1), (1637, 1), (40351, 1)]),
  (2199023255069, 2, [(2, 2), (193, 1), (2848475719, 1)]),
  (4398046511269, 2, [(2, 2), (3, 1), (19, 1), (2089, 1), (9233929, 1)]),
  (4398046511779, 3, [(2, 1), (3, 2), (271, 1), (5051, 1), (178501, 1)]),
  (4398046511839, 3, [(2, 1), (3, 1), (7, 2), (19, 1), (41, 1), (89, 1), (215767, 1)]),
  (1152921504314032129, 7, [(2, 18), (3, 3), (13, 1), (331, 1), (5953, 1), (6359, 1)]),
  (1152921504321372161, 3, [(2, 18), (5, 1), (31, 1), (61, 1), (607, 1), (691, 1), (1109, 1)]),
  (1152921504337625089, 26, [(2, 18), (3, 2), (11, 1), (31, 1), (239, 1), (5996047, 1)]),
  (1152921504337887233, 3, [(2, 19), (13, 1), (37, 1), (4571773919, 1)]),
  (1152921504353615873, 3, [(2, 19), (2199023255069, 1)]),
  (1152921504361218049, 7, [(2, 18), (3, 2), (859, 1), (11243, 1), (50599, 1)]),
  (1152921504362790913, 10, [(2, 18), (3, 1), (6991, 1), (209700401, 1)]),
  (1152921504364625921, 11, [(2, 20), (5, 1), (223, 1), (1723, 1), (572321, 1)]),
  (1152921504368558081, 3, [(2, 18), (5, 1), (13, 1), (71, 1), (421, 1), (2263633, 1)]),
  (1152921504369344513, 3, [(2, 19), (11, 1), (41, 1), (61, 2), (1310369, 1)]),
  (1152921504373014529, 7, [(2, 20), (3, 2), (21191, 1), (5765087, 1)]),
  (1152921504395821057, 10, [(2, 18), (3, 1), (13, 1), (19, 1), (1861, 1), (3189299, 1)]),
  (1152921504396869633, 3, [(2, 18), (373, 1), (5647, 1), (2088013, 1)]),
  (1152921504403947521, 3, [(2, 19), (5, 1), (11, 1), (151, 1), (8933, 1), (29641, 1)]),
  (1152921504409190401, 11, [(2, 19), (3, 1), (5, 2), (85639, 1), (342371, 1)]),
  (1152921504419414017, 11, [(2, 18), (3, 1), (7, 1), (281, 1), (12301, 1), (60589, 1)]),
  (1152921504427278337, 5, [(2, 18), (3, 6), (6032985611, 1)]),
  (1152921504436191233, 3, [(2, 18), (342059, 1), (12857567, 1)]),
  (1152921504442482689, 3, [(2, 18), (23, 1), (67, 1), (2854021097, 1)]),
  (1152921504447987713, 3, [(2, 19), (11299, 1), (194621051, 1)]),
  (1152921504455589889, 13, [(2, 18), (3, 3), (19, 1), (2377, 1), (3606727, 1)]),
  (1152921504462667777, 5, [(2, 19), (3, 3), (29, 1), (1327, 1), (2116397, 1)]),
  (1152921504462929921, 3, [(2, 18), (5, 1), (103, 1), (239, 1), (4373, 1), (8171, 1)]),
  (1152921504468172801, 11, [(2, 18), (3, 1), (5, 2), (149, 1), (211, 1), (563, 1), (3313, 1)]),
  (1152921504470794241, 6, [(2, 18), (5, 1), (7, 1), (13, 1), (9666036287, 1)]),
  (1152921504479444993, 3, [(2, 19), (3557, 1), (6793, 1), (91009, 1)]),
  (1152921504488620033, 5, [(2, 18), (3, 2), (113, 1), (283, 1), (15281023, 1)]),
  (1152921504491241473, 3, [(2, 18), (13, 1), (353, 1), (457, 1), (2097131, 1)]),
  (1152921504495697921, 14, [(2, 21), (3, 2), (5, 1), (6833, 1), (1787911, 1)]),
  (1152921504506970113, 3, [(2, 18), (208459, 1), (21097897, 1)]),
  (1152921504508280833, 10, [(2, 21), (3, 1), (13, 1), (29, 2), (31, 1), (540689, 1)]),
  (1152921504509853697, 5, [(2, 19), (3, 2), (6947, 1), (35171429, 1)]),
  (1152921504521650177, 7, [(2, 18), (3, 2), (659, 1), (1031, 1), (719239, 1)]),
  (1152921504531873793, 13, [(2, 19), (3, 1), (37, 1), (2531, 1), (7827349, 1)]),
  (1152921504537378817, 7, [(2, 18), (3, 1), (1466015503613, 1)]),
  (1152921504538951681, 47, [(2, 18), (3, 1), (5, 1), (13, 1), (17, 1), (23, 1), (43, 1), (1341467, 1)]),
  (1152921504542883841, 11, [(2, 20), (3, 2), (5, 1), (130051, 1), (187877, 1)]),
  (1152921504552583169, 3, [(2, 18), (13, 1), (383, 1), (883319243, 1)]),
  (1152921504554156033, 3, [(2, 18), (251, 1), (17522097653, 1)]),
  (1152921504555466753, 5, [(2, 20), (3, 1), (193, 1), (1811, 1), (1048583, 1)]),
  (1152921504556515329, 3, [(2, 24), (242819, 1), (283007, 1)]),
  (1152921504563331073, 5, [(2, 19), (3, 1), (79, 1), (2711, 1), (3422567, 1)]),
  (1152921504565166081, 3, [(2, 18), (5, 1), (19, 1), (31, 1), (647, 1), (2308183, 1)]),
  (1152921504568836097, 5, [(2, 18), (3, 3), (139, 1), (9941, 1), (117883, 1)]),
  (1152921504577486849, 17, [(2, 22), (3, 1), (113, 1), (810849283, 1)]),
  (1152921504577748993, 3, [(2, 18), (613, 1), (2039, 1), (3518699, 1)]),
  (1152921504578273281, 7, [(2, 18), (3, 2), (5, 1), (3023, 1), (32330257, 1)]),
  (1152921504580894721, 3, [(2, 18), (5, 1), (7, 3), (2564458607, 1)]),
  (1152921504581419009, 11, [(2, 18), (3, 1), (31, 1), (47, 1), (4969, 1), (202493, 1)]),
  (1152921504592429057, 5, [(2, 18), (3, 2), (17, 1), (373, 1), (733, 1), (105137, 1)]),
  (1152921504598720513, 5, [(2, 18), (3, 1), (571, 1), (2099, 1), (1223179, 1)]),
  (1152921504606584833, 10, [(2, 18), (3, 2), (7, 2), (43, 1), (127, 1), (337, 1), (5419, 1)]),
  (1152921504616808449, 11, [(2, 19), (3, 1), (733007751857, 1)]),
  (1152921504618381313, 5, [(2, 20), (3, 7), (47, 1), (10696783, 1)]),
  (1152921504622575617, 3, [(2, 20), (1099511627791, 1)]),
  (1152921504634109953, 5, [(2, 21), (3, 1), (7, 1), (211, 1), (124070371, 1)]),
  (1152921504643809281, 3, [(2, 18), (5, 1), (4513, 1), (194905673, 1)]),
  (1152921504650100737, 3, [(2, 18), (4398046511269, 1)]),
  (1152921504663994369, 7, [(2, 19), (3, 1), (733007751887, 1)]),
  (1152921504666615809, 3, [(2, 20), (73, 1), (349, 1), (43157029, 1)]),
  (1152921504672645121, 11, [(2, 18), (3, 2), (5, 1), (7, 1), (17, 1), (83, 1), (1151, 1), (8597, 1)]),
  (1152921504687849473, 3, [(2, 18), (1009, 1), (4358817157, 1)]),
  (1152921504690208769, 3, [(2, 19), (373, 1), (36061, 1), (163487, 1)]),
  (1152921504690995201, 3, [(2, 18), (5, 2), (7, 1), (17989, 1), (1397059, 1)]),
  (1152921504694927361, 3, [(2, 22), (5, 1), (17, 1), (337, 1), (9596017, 1)]),
  (1152921504695451649, 13, [(2, 19), (3, 1), (30203, 1), (24269369, 1)]),
  (1152921504695713793, 3, [(2, 18), (13, 1), (23, 1), (14709185657, 1)]),
  (1152921504697286657, 3, [(2, 18), (59, 1), (74543161211, 1)]),
  (1152921504717733889, 3, [(2, 18), (149519, 1), (29414633, 1)]),
  (1152921504722190337, 11, [(2, 21), (3, 2), (7, 2), (71, 1), (17557913, 1)]),
  (1152921504730316801, 3, [(2, 18), (5, 2), (863, 1), (203849201, 1)]),
  (1152921504730841089, 11, [(2, 18), (3, 1), (457, 1), (983, 1), (3263389, 1)]),
  (1152921504738181121, 3, [(2, 18), (5, 1), (879609302321, 1)]),
  (1152921504741851137, 10, [(2, 18), (3, 1), (43, 1), (107927, 1), (315893, 1)]),
  (1152921504746569729, 7, [(2, 18), (3, 1), (1466015503879, 1)]),
  (1152921504756006913, 10, [(2, 18), (3, 1), (23, 1), (34439, 1), (1850803, 1)]),
  (1152921504760201217, 3, [(2, 18), (31, 1), (107, 1), (151, 1), (8780867, 1)]),
  (1152921504760987649, 3, [(2, 20), (284527, 1), (3864349, 1)]),
  (1152921504767016961, 43, [(2, 18), (3, 4), (5, 1), (41, 1), (53, 1), (1163, 1), (4297, 1)]),
  (1152921504770424833, 3, [(2, 22), (79, 1), (3479467177, 1)]),
  (1152921504783794177, 3, [(2, 18), (4398046511779, 1)]),
  (1152921504786677761, 17, [(2, 19), (3, 1), (5, 1), (146601550393, 1)]),
  (1152921504790085633, 3, [(2, 18), (7, 1), (59, 1), (109, 1), (97697459, 1)]),
  (1152921504790609921, 7, [(2, 18), (3, 2), (5, 1), (97734366929, 1)]),
  (1152921504794542081, 19, [(2, 20), (3, 1), (5, 1), (13, 1), (5638521169, 1)]),
  (1152921504795590657, 3, [(2, 22), (7, 1), (4721, 1), (8317787, 1)]),
  (1152921504799522817, 3, [(2, 18), (4398046511839, 1)]),
  (1152921504801882113, 3, [(2, 21), (11, 1), (17, 1), (191, 1), (15391993, 1)]),
  (1152921504829145089, 14, [(2, 22), (3, 1), (19, 1), (167, 1), (2399, 1), (12037, 1)]),
  (1152921504829931521, 7, [(2, 18), (3, 1), (5, 1), (293203100797, 1)]),
  (1152921504836485121, 3, [(2, 20), (5, 1), (11, 1), (53, 1), (59, 1), (6393067, 1)]),
  (1152921504839630849, 3, [(2, 21), (7, 1), (127, 1), (10667, 1), (57973, 1)]),
  (1152921504840941569, 14, [(2, 18), (3, 1), (103, 1), (397, 1), (1669, 1), (21481, 1)]),
  (1152921504843563009, 3, [(2, 18), (88817, 1), (49518071, 1)]),
  (1152921504845660161, 21, [(2, 18), (3, 1), (5, 1), (13, 1), (22554084677, 1)]),
  (1152921504846446593, 5, [(2, 19), (3, 1), (17, 1), (23, 1), (67, 1), (27980599, 1)]),
  (1152921504859815937, 5, [(2, 18), (3, 1), (7, 1), (17, 2), (724674001, 1)]),
  (1152921504860602369, 11, [(2, 21), (3, 1), (183251938003, 1)]),
  (1152921504862437377, 3, [(2, 18), (11, 1), (1483, 1), (269603783, 1)]),
  (1152921504876331009, 11, [(2, 20), (3, 1), (7, 2), (13, 1), (241, 1), (2387383, 1)]),
  (1152921504885768193, 5, [(2, 21), (3, 1), (373, 1), (521, 1), (942979, 1)]),
  (1152921504895467521, 3, [(2, 18), (5, 1), (17, 1), (51741723673, 1)])]

end EvalRound
