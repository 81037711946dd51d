import Verif.Standards.Model
import Mathlib.Data.Rat.Floor

/-! # The tables shipped with the library (src/data/insulation_standards/*.json)

Transcribed from the JSON files as exact rationals: the decimal of the file, not the double nearest to it. An
empty table stands for a missing key, which `operator[]` of `std::map` inserts. -/

namespace Verif.Standards.Shipped

open Verif.Insulation Verif.Standards

/-- Rows of distances: the voltage in tenths of a volt, the distance in tenths of a micrometre. -/
def metres (l : List (Nat × Nat)) : Table ℚ := l.map fun r => ((r.1 : ℚ) / 10, (r.2 : ℚ) / 10 ^ 7)

/-- Rows of voltages: the argument in tenths, the voltage in volts. -/
def volts (l : List (Nat × Nat)) : Table ℚ := l.map fun r => ((r.1 : ℚ) / 10, (r.2 : ℚ))

/-- Rows of factors or voltages: the argument in tenths, the value in hundredths. -/
def hundredths (l : List (Nat × Nat)) : Table ℚ := l.map fun r => ((r.1 : ℚ) / 10, (r.2 : ℚ) / 100)

/-- Altitude factors A.2 (src/data/insulation_standards/IEC_60664-1.json). -/
def a2 : Table ℚ :=
    hundredths [(20000, 100), (30000, 114), (40000, 129), (50000, 148), (60000, 170), (70000, 195),
     (80000, 225), (90000, 262), (100000, 302), (150000, 667), (200000, 1450)]

/-- Rated impulse voltages F.1 (src/data/insulation_standards/IEC_60664-1.json). -/
def f1 : Ovc → Table ℚ
  | .i =>
    volts [(500, 330), (1000, 500), (1500, 800), (3000, 1500), (6000, 2500), (10000, 4000), (15000, 6000)]
  | .ii =>
    volts [(500, 500), (1000, 800), (1500, 1500), (3000, 2500), (6000, 4000), (10000, 6000), (15000, 8000)]
  | .iii =>
    volts [(500, 800), (1000, 1500), (1500, 2500), (3000, 4000), (6000, 6000), (10000, 8000), (15000, 10000)]
  | .iv =>
    volts [(500, 1500), (1000, 2500), (1500, 4000), (3000, 6000), (6000, 8000), (10000, 12000),
     (15000, 15000)]

/-- Clearances F.2, inhomogeneous field (src/data/insulation_standards/IEC_60664-1.json). -/
def f2 : Pd → Table ℚ
  | .pd1 =>
    metres [(3300, 100), (4000, 200), (5000, 400), (6000, 600), (8000, 1000), (10000, 1500), (12000, 2500),
     (15000, 5000), (20000, 10000), (25000, 15000), (30000, 20000), (40000, 30000), (50000, 40000),
     (60000, 55000), (80000, 80000), (100000, 110000), (120000, 140000), (150000, 180000),
     (200000, 250000), (250000, 330000), (300000, 400000), (400000, 600000), (500000, 750000),
     (600000, 900000), (800000, 1300000), (1000000, 1700000)]
  | .pd2 =>
    metres [(3300, 2000), (4000, 2000), (5000, 2000), (6000, 2000), (8000, 2000), (10000, 2000),
     (12000, 2500), (15000, 5000), (20000, 10000), (25000, 15000), (30000, 20000), (40000, 30000),
     (50000, 40000), (60000, 55000), (80000, 80000), (100000, 110000), (120000, 140000), (150000, 180000),
     (200000, 250000), (250000, 330000), (300000, 400000), (400000, 600000), (500000, 750000),
     (600000, 900000), (800000, 1300000), (1000000, 1700000)]
  | .pd3 =>
    metres [(3300, 8000), (4000, 8000), (5000, 8000), (6000, 8000), (8000, 8000), (10000, 8000),
     (12000, 8000), (15000, 8000), (20000, 10000), (25000, 15000), (30000, 20000), (40000, 30000),
     (50000, 40000), (60000, 55000), (80000, 80000), (100000, 110000), (120000, 140000), (150000, 180000),
     (200000, 250000), (250000, 330000), (300000, 400000), (400000, 600000), (500000, 750000),
     (600000, 900000), (800000, 1300000), (1000000, 1700000)]

/-- Rated insulation voltages F.3 (src/data/insulation_standards/IEC_60664-1.json). -/
def f3 : Table ℚ :=
    hundredths [(125, 1250), (250, 2500), (300, 3200), (420, 5000), (480, 5000), (500, 5000), (600, 6300),
     (1000, 10000), (1100, 12500), (1200, 12500), (1500, 16000), (2000, 20000), (2200, 25000),
     (3000, 32000), (6000, 63000), (10000, 100000), (15000, 150000)]

/-- Creepage distances F.5, the `wound` part (src/data/insulation_standards/IEC_60664-1.json). -/
def f5 : Pd → Cti → Option (Table ℚ)
  | .pd1, .groupI =>
    some (
      metres [(100, 800), (125, 900), (160, 1000), (200, 1100), (250, 1250), (320, 1400), (400, 1600),
       (500, 1800), (630, 2000), (800, 2200), (1000, 2500), (1250, 2800), (1600, 3200), (2000, 4200),
       (2500, 5600), (3200, 7500), (4000, 10000), (5000, 13000), (6300, 18000), (8000, 24000),
       (10000, 32000), (12500, 42000), (16000, 56000), (20000, 75000), (25000, 100000), (32000, 125000),
       (40000, 160000), (50000, 200000), (63000, 250000), (80000, 320000), (100000, 400000),
       (125000, 500000), (160000, 630000), (200000, 800000), (250000, 1000000), (320000, 1250000),
       (400000, 1600000), (500000, 2000000), (630000, 2500000)])
  | .pd1, .groupII =>
    some (
      metres [(100, 800), (125, 900), (160, 1000), (200, 1100), (250, 1250), (320, 1400), (400, 1600),
       (500, 1800), (630, 2000), (800, 2200), (1000, 2500), (1250, 2800), (1600, 3200), (2000, 4200),
       (2500, 5600), (3200, 7500), (4000, 10000), (5000, 13000), (6300, 18000), (8000, 24000),
       (10000, 32000), (12500, 42000), (16000, 56000), (20000, 75000), (25000, 100000), (32000, 125000),
       (40000, 160000), (50000, 200000), (63000, 250000), (80000, 320000), (100000, 400000),
       (125000, 500000), (160000, 630000), (200000, 800000), (250000, 1000000), (320000, 1250000),
       (400000, 1600000), (500000, 2000000), (630000, 2500000)])
  | .pd1, .groupIIIA =>
    some (
      metres [(100, 800), (125, 900), (160, 1000), (200, 1100), (250, 1250), (320, 1400), (400, 1600),
       (500, 1800), (630, 2000), (800, 2200), (1000, 2500), (1250, 2800), (1600, 3200), (2000, 4200),
       (2500, 5600), (3200, 7500), (4000, 10000), (5000, 13000), (6300, 18000), (8000, 24000),
       (10000, 32000), (12500, 42000), (16000, 56000), (20000, 75000), (25000, 100000), (32000, 125000),
       (40000, 160000), (50000, 200000), (63000, 250000), (80000, 320000), (100000, 400000),
       (125000, 500000), (160000, 630000), (200000, 800000), (250000, 1000000), (320000, 1250000),
       (400000, 1600000), (500000, 2000000), (630000, 2500000)])
  | .pd1, .groupIIIB =>
    some (
      metres [(100, 800), (125, 900), (160, 1000), (200, 1100), (250, 1250), (320, 1400), (400, 1600),
       (500, 1800), (630, 2000), (800, 2200), (1000, 2500), (1250, 2800), (1600, 3200), (2000, 4200),
       (2500, 5600), (3200, 7500), (4000, 10000), (5000, 13000), (6300, 18000), (8000, 24000),
       (10000, 32000), (12500, 42000), (16000, 56000), (20000, 75000), (25000, 100000), (32000, 125000),
       (40000, 160000), (50000, 200000), (63000, 250000), (80000, 320000), (100000, 400000),
       (125000, 500000), (160000, 630000), (200000, 800000), (250000, 1000000), (320000, 1250000),
       (400000, 1600000), (500000, 2000000), (630000, 2500000)])
  | .pd2, .groupI =>
    some (
      metres [(100, 4000), (125, 4200), (160, 4500), (200, 4800), (250, 5000), (320, 5300), (400, 5600),
       (500, 6000), (630, 6300), (800, 6700), (1000, 7100), (1250, 7500), (1600, 8000), (2000, 10000),
       (2500, 12500), (3200, 16000), (4000, 20000), (5000, 25000), (6300, 32000), (8000, 40000),
       (10000, 50000), (12500, 63000), (16000, 80000), (20000, 100000), (25000, 125000), (32000, 160000),
       (40000, 200000), (50000, 250000), (63000, 320000), (80000, 400000), (100000, 500000),
       (125000, 630000), (160000, 800000), (200000, 1000000), (250000, 1250000), (320000, 1600000),
       (400000, 2000000), (500000, 2500000), (630000, 3200000)])
  | .pd2, .groupII =>
    some (
      metres [(100, 4000), (125, 4200), (160, 4500), (200, 4800), (250, 5000), (320, 5300), (400, 8000),
       (500, 8500), (630, 9000), (800, 9500), (1000, 10000), (1250, 10500), (1600, 11000), (2000, 14000),
       (2500, 18000), (3200, 22000), (4000, 28000), (5000, 36000), (6300, 45000), (8000, 56000),
       (10000, 71000), (12500, 90000), (16000, 110000), (20000, 140000), (25000, 180000), (32000, 220000),
       (40000, 280000), (50000, 360000), (63000, 450000), (80000, 560000), (100000, 710000),
       (125000, 900000), (160000, 1100000), (200000, 1400000), (250000, 1800000), (320000, 2200000),
       (400000, 2800000), (500000, 3600000), (630000, 4500000)])
  | .pd2, .groupIIIA =>
    some (
      metres [(100, 4000), (125, 4200), (160, 4500), (200, 4800), (250, 5000), (320, 5300), (400, 11000),
       (500, 12000), (630, 12500), (800, 13000), (1000, 14000), (1250, 15000), (1600, 16000),
       (2000, 20000), (2500, 25000), (3200, 32000), (4000, 40000), (5000, 50000), (6300, 63000),
       (8000, 80000), (10000, 100000), (12500, 125000), (16000, 160000), (20000, 200000), (25000, 250000),
       (32000, 320000), (40000, 400000), (50000, 500000), (63000, 630000), (80000, 800000),
       (100000, 1000000), (125000, 1250000), (160000, 1600000), (200000, 2000000), (250000, 2500000),
       (320000, 3200000), (400000, 4000000), (500000, 5000000), (630000, 6000000)])
  | .pd2, .groupIIIB =>
    some (
      metres [(100, 4000), (125, 4200), (160, 4500), (200, 4800), (250, 5000), (320, 5300), (400, 11000),
       (500, 12000), (630, 12500), (800, 13000), (1000, 14000), (1250, 15000), (1600, 16000),
       (2000, 20000), (2500, 25000), (3200, 32000), (4000, 40000), (5000, 50000), (6300, 63000),
       (8000, 80000), (10000, 100000), (12500, 125000), (16000, 160000), (20000, 200000), (25000, 250000),
       (32000, 320000), (40000, 400000), (50000, 500000), (63000, 630000), (80000, 800000),
       (100000, 1000000), (125000, 1250000), (160000, 1600000), (200000, 2000000), (250000, 2500000),
       (320000, 3200000), (400000, 4000000), (500000, 5000000), (630000, 6000000)])
  | .pd3, .groupI =>
    some (
      metres [(100, 10000), (125, 10500), (160, 11000), (200, 12000), (250, 12500), (320, 13000),
       (400, 14000), (500, 15000), (630, 16000), (800, 17000), (1000, 18000), (1250, 19000), (1600, 20000),
       (2000, 25000), (2500, 32000), (3200, 40000), (4000, 50000), (5000, 63000), (6300, 80000),
       (8000, 100000), (10000, 125000), (12500, 160000), (16000, 200000), (20000, 250000), (25000, 320000),
       (32000, 400000), (40000, 500000), (50000, 630000), (63000, 800000), (80000, 1000000),
       (100000, 1250000)])
  | .pd3, .groupII =>
    some (
      metres [(100, 10000), (125, 10500), (160, 11000), (200, 12000), (250, 12500), (320, 13000),
       (400, 16000), (500, 17000), (630, 18000), (800, 19000), (1000, 20000), (1250, 21000), (1600, 22000),
       (2000, 28000), (2500, 36000), (3200, 45000), (4000, 56000), (5000, 71000), (6300, 90000),
       (8000, 110000), (10000, 140000), (12500, 180000), (16000, 220000), (20000, 280000), (25000, 360000),
       (32000, 450000), (40000, 560000), (50000, 710000), (63000, 900000), (80000, 1100000),
       (100000, 1400000)])
  | .pd3, .groupIIIA =>
    some (
      metres [(100, 10000), (125, 10500), (160, 11000), (200, 12000), (250, 12500), (320, 13000),
       (400, 18000), (500, 19000), (630, 20000), (800, 21000), (1000, 22000), (1250, 24000), (1600, 25000),
       (2000, 32000), (2500, 40000), (3200, 50000), (4000, 63000), (5000, 80000), (6300, 100000),
       (8000, 125000), (10000, 160000), (12500, 200000), (16000, 250000), (20000, 320000), (25000, 400000),
       (32000, 500000), (40000, 630000), (50000, 800000), (63000, 1000000), (80000, 1250000),
       (100000, 1600000)])
  | .pd3, .groupIIIB =>
    some (
      metres [(100, 10000), (125, 10500), (160, 11000), (200, 12000), (250, 12500), (320, 13000),
       (400, 18000), (500, 19000), (630, 20000), (800, 21000), (1000, 22000), (1250, 24000), (1600, 25000),
       (2000, 32000), (2500, 40000), (3200, 50000), (4000, 63000), (5000, 80000), (6300, 100000),
       (8000, 125000), (10000, 160000), (12500, 200000), (16000, 250000), (20000, 320000), (25000, 400000),
       (32000, 500000), (40000, 630000), (50000, 800000), (63000, 1000000), (80000, 1250000),
       (100000, 1600000)])

/-- Clearances F.8, inhomogeneous field (src/data/insulation_standards/IEC_60664-1.json). -/
def f8 : Table ℚ :=
    metres [(400, 10), (600, 20), (1000, 30), (1200, 40), (1500, 50), (2000, 60), (2500, 80), (3300, 100),
     (4000, 200), (5000, 400), (6000, 600), (8000, 1300), (10000, 2600), (12000, 4200), (15000, 7600),
     (20000, 12700), (25000, 18000), (30000, 24000), (40000, 38000), (50000, 57000), (60000, 79000),
     (80000, 110000), (100000, 152000), (120000, 190000), (150000, 250000), (200000, 340000),
     (250000, 440000), (300000, 550000), (400000, 770000), (500000, 1000000)]

/-- Table 1 of part 4 (src/data/insulation_standards/IEC_60664-4.json). -/
def p4t1 : Table ℚ :=
    metres [(6000, 650), (8000, 1800), (10000, 5000), (12000, 14000), (14000, 23500), (16000, 40000),
     (18000, 67000), (20000, 110000)]

/-- Table 2 of part 4 (src/data/insulation_standards/IEC_60664-4.json). -/
def p4t2 : FreqTable ℚ :=
    [(100000, metres [(1000, 170), (2000, 420), (3000, 830), (4000, 1250), (5000, 1830), (6000, 2670),
        (7000, 3580), (8000, 4500), (9000, 5250), (10000, 6000), (11000, 6830), (12000, 8500),
        (13000, 12000), (14000, 16500), (15000, 23000), (16000, 31500), (17000, 44000), (18000, 61000)]),
     (200000, metres [(3000, 900), (4000, 1300), (5000, 1900), (6000, 2700), (7000, 3800), (8000, 5500),
        (9000, 8200), (10000, 11500), (11000, 17000), (12000, 24000), (13000, 35000), (14000, 50000),
        (15000, 73000)]),
     (400000, metres [(3000, 900), (4000, 1500), (5000, 2500), (6000, 4000), (7000, 6800), (8000, 11000),
        (9000, 19000), (10000, 30000), (11000, 50000), (12000, 82000)]),
     (700000, metres [(3000, 900), (4000, 1900), (5000, 4000), (6000, 8500), (7000, 19000), (8000, 38000),
        (9000, 87000), (10000, 180000)]),
     (1000000, metres [(3000, 900), (4000, 3500), (5000, 15000), (6000, 50000), (7000, 200000)]),
     (2000000, metres [(2000, 1500), (3000, 8000), (4000, 45000), (5000, 200000)]),
     (3000000, metres [(1000, 3000), (2000, 28000), (3000, 200000)])]

/-- Table 2 of part 5, inhomogeneous field (src/data/insulation_standards/IEC_60664-5.json). -/
def p5t2 : Table ℚ :=
    metres [(3300, 100), (4000, 200), (5000, 400), (6000, 600), (8000, 1000), (10000, 1500), (12000, 2500),
     (15000, 5000), (20000, 10000), (25000, 15000), (30000, 20000)]

/-- Table 3 of part 5, inhomogeneous field (src/data/insulation_standards/IEC_60664-5.json). -/
def p5t3 : Table ℚ :=
    metres [(400, 10), (600, 20), (1000, 30), (1200, 40), (1500, 50), (2000, 60), (2500, 80), (3300, 100),
     (4000, 200), (5000, 400), (6000, 600), (8000, 1300), (10000, 2600), (12000, 4200), (15000, 7600),
     (20000, 12700), (25000, 18000), (30000, 24000)]

/-- Table 4 of part 5 (src/data/insulation_standards/IEC_60664-5.json). -/
def p5t4 : Pd → Cti → Option (Table ℚ)
  | .pd1, .groupI =>
    some (
      metres [(400, 250), (500, 250), (630, 400), (800, 630), (1000, 1000), (1250, 1600), (1600, 2500),
       (2000, 4000), (2500, 5600), (3200, 7500), (4000, 10000), (5000, 13000), (6300, 18000), (8000, 24000)])
  | .pd1, .groupII =>
    some (
      metres [(400, 250), (500, 250), (630, 400), (800, 630), (1000, 1000), (1250, 1600), (1600, 2500),
       (2000, 4000), (2500, 5600), (3200, 7500), (4000, 10000), (5000, 13000), (6300, 18000), (8000, 24000)])
  | .pd1, .groupIIIA =>
    some (
      metres [(400, 250), (500, 250), (630, 400), (800, 630), (1000, 1000), (1250, 1600), (1600, 2500),
       (2000, 4000), (2500, 5600), (3200, 7500), (4000, 10000), (5000, 13000), (6300, 18000), (8000, 24000)])
  | .pd1, .groupIIIB =>
    some (
      metres [(400, 250), (500, 250), (630, 400), (800, 630), (1000, 1000), (1250, 1600), (1600, 2500),
       (2000, 4000), (2500, 5600), (3200, 7500), (4000, 10000), (5000, 13000), (6300, 18000), (8000, 24000)])
  | .pd2, .groupI =>
    some (
      metres [(400, 400), (500, 400), (630, 630), (800, 1000), (1000, 1600), (1250, 2500), (1600, 4000),
       (2000, 6300), (2500, 10000), (3200, 16000), (4000, 20000)])
  | .pd2, .groupII =>
    some (
      metres [(400, 400), (500, 400), (630, 630), (800, 1000), (1000, 1600), (1250, 2500), (1600, 4000),
       (2000, 6300), (2500, 10000), (3200, 16000), (4000, 20000)])
  | .pd2, .groupIIIA =>
    some (
      metres [(400, 400), (500, 400), (630, 630), (800, 1000), (1000, 1600), (1250, 2500), (1600, 4000),
       (2000, 6300), (2500, 10000), (3200, 16000), (4000, 20000)])
  | .pd2, .groupIIIB =>
    none
  | .pd3, .groupI =>
    some (
      metres [(400, 10000), (500, 10000), (630, 10000), (800, 10000), (1000, 12500), (1250, 16000),
       (1600, 20000)])
  | .pd3, .groupII =>
    some (
      metres [(400, 10000), (500, 10000), (630, 10000), (800, 11000), (1000, 14000), (1250, 18000),
       (1600, 22000)])
  | .pd3, .groupIIIA =>
    some (
      metres [(400, 10000), (500, 10000), (630, 10000), (800, 12500), (1000, 16000), (1250, 20000)])
  | .pd3, .groupIIIB =>
    none

/-- Table 10 (src/data/insulation_standards/IEC_62368-1.json). -/
def g10 : Bool → Pd → Table ℚ
  | true, .pd1 =>
    metres [(3300, 200), (4000, 400), (5000, 800), (6000, 1200), (8000, 2600), (10000, 5200),
     (12000, 8400), (15000, 15200), (20000, 25400), (25000, 36000), (30000, 48000), (40000, 76000),
     (50000, 110000), (60000, 158000), (80000, 200000), (100000, 270000), (120000, 330000),
     (150000, 420000), (200000, 590000), (250000, 770000), (300000, 950000), (400000, 1310000),
     (500000, 1750000), (600000, 2190000), (800000, 3070000), (1000000, 3950000)]
  | true, .pd2 =>
    metres [(3300, 4000), (4000, 4000), (5000, 4000), (6000, 4000), (8000, 4000), (10000, 5200),
     (12000, 8400), (15000, 15200), (20000, 25400), (25000, 36000), (30000, 48000), (40000, 76000),
     (50000, 110000), (60000, 158000), (80000, 200000), (100000, 270000), (120000, 330000),
     (150000, 420000), (200000, 590000), (250000, 770000), (300000, 950000), (400000, 1310000),
     (500000, 1750000), (600000, 2190000), (800000, 3070000), (1000000, 3950000)]
  | true, .pd3 =>
    metres [(3300, 15000), (4000, 15000), (5000, 15000), (6000, 15000), (8000, 15000), (10000, 15000),
     (12000, 15000), (15000, 16000), (20000, 25400), (25000, 36000), (30000, 48000), (40000, 76000),
     (50000, 110000), (60000, 158000), (80000, 200000), (100000, 270000), (120000, 330000),
     (150000, 420000), (200000, 590000), (250000, 770000), (300000, 950000), (400000, 1310000),
     (500000, 1750000), (600000, 2190000), (800000, 3070000), (1000000, 3950000)]
  | false, .pd1 =>
    metres [(3300, 100), (4000, 200), (5000, 400), (6000, 600), (8000, 1300), (10000, 2600), (12000, 4200),
     (15000, 7600), (20000, 12700), (25000, 18000), (30000, 24000), (40000, 38000), (50000, 57000),
     (60000, 79000), (80000, 110000), (100000, 152000), (120000, 190000), (150000, 250000),
     (200000, 340000), (250000, 440000), (300000, 550000), (400000, 770000), (500000, 1000000),
     (600000, 1200000), (800000, 1750000), (1000000, 2300000)]
  | false, .pd2 =>
    metres [(3300, 2000), (4000, 2000), (5000, 2000), (6000, 2000), (8000, 2000), (10000, 2600),
     (12000, 4200), (15000, 7600), (20000, 12700), (25000, 18000), (30000, 24000), (40000, 38000),
     (50000, 57000), (60000, 79000), (80000, 110000), (100000, 152000), (120000, 190000), (150000, 250000),
     (200000, 340000), (250000, 440000), (300000, 550000), (400000, 770000), (500000, 1000000),
     (600000, 1200000), (800000, 1750000), (1000000, 2300000)]
  | false, .pd3 =>
    metres [(3300, 8000), (4000, 8000), (5000, 8000), (6000, 8000), (8000, 8000), (10000, 8000),
     (12000, 8000), (15000, 8000), (20000, 12700), (25000, 18000), (30000, 24000), (40000, 38000),
     (50000, 57000), (60000, 79000), (80000, 110000), (100000, 152000), (120000, 190000), (150000, 250000),
     (200000, 340000), (250000, 440000), (300000, 550000), (400000, 770000), (500000, 1000000),
     (600000, 1200000), (800000, 1750000), (1000000, 2300000)]

/-- Table 11 (src/data/insulation_standards/IEC_62368-1.json). -/
def g11 : Bool → Table ℚ
  | true =>
    metres [(6000, 1400), (8000, 4400), (10000, 12000), (12000, 33600), (14000, 56400), (16000, 96000),
     (18000, 160800), (20000, 264000)]
  | false =>
    metres [(6000, 700), (8000, 2200), (10000, 6000), (12000, 16800), (14000, 28200), (16000, 48000),
     (18000, 80400), (20000, 132000)]

/-- Table 12 (src/data/insulation_standards/IEC_62368-1.json). -/
def g12 : Ovc → Table ℚ
  | .i =>
    volts [(500, 330), (1500, 500), (2400, 800), (4800, 1500), (6900, 2500)]
  | .ii =>
    volts [(500, 500), (1500, 800), (2400, 1500), (4800, 2500), (6900, 4000)]
  | .iii =>
    volts [(500, 800), (1500, 1500), (2400, 2500), (4800, 4000), (6900, 6000)]
  | .iv =>
    volts [(500, 1500), (1500, 2500), (2400, 4000), (4800, 6000), (6900, 8000)]

/-- Table 14 (src/data/insulation_standards/IEC_62368-1.json). -/
def g14 : Bool → Pd → Table ℚ
  | true, .pd1 =>
    metres [(3300, 200), (4000, 400), (5000, 800), (6000, 1200), (8000, 2000), (10000, 3000),
     (12000, 5000), (15000, 10000), (20000, 20000), (25000, 30000), (30000, 38000), (40000, 55000),
     (50000, 80000), (60000, 80000), (80000, 140000), (100000, 190000), (120000, 240000), (150000, 310000),
     (200000, 440000), (250000, 600000), (300000, 720000), (400000, 980000), (500000, 1300000),
     (600000, 1620000), (800000, 2260000), (1000000, 2900000)]
  | true, .pd2 =>
    metres [(3300, 4000), (4000, 4000), (5000, 4000), (6000, 4000), (8000, 4000), (10000, 4000),
     (12000, 5000), (15000, 10000), (20000, 20000), (25000, 30000), (30000, 38000), (40000, 55000),
     (50000, 80000), (60000, 80000), (80000, 140000), (100000, 190000), (120000, 240000), (150000, 310000),
     (200000, 440000), (250000, 600000), (300000, 720000), (400000, 980000), (500000, 1300000),
     (600000, 1620000), (800000, 2260000), (1000000, 2900000)]
  | true, .pd3 =>
    metres [(3300, 15000), (4000, 15000), (5000, 15000), (6000, 15000), (8000, 15000), (10000, 15000),
     (12000, 15000), (15000, 15000), (20000, 20000), (25000, 30000), (30000, 38000), (40000, 55000),
     (50000, 80000), (60000, 80000), (80000, 140000), (100000, 190000), (120000, 240000), (150000, 310000),
     (200000, 440000), (250000, 600000), (300000, 720000), (400000, 980000), (500000, 1300000),
     (600000, 1620000), (800000, 2260000), (1000000, 2900000)]
  | false, .pd1 =>
    metres [(3300, 100), (4000, 200), (5000, 400), (6000, 600), (8000, 1000), (10000, 1500), (12000, 2500),
     (15000, 5000), (20000, 10000), (25000, 15000), (30000, 20000), (40000, 30000), (50000, 40000),
     (60000, 55000), (80000, 80000), (100000, 110000), (120000, 140000), (150000, 180000),
     (200000, 250000), (250000, 330000), (300000, 400000), (400000, 600000), (500000, 750000),
     (600000, 900000), (800000, 1300000), (1000000, 1700000)]
  | false, .pd2 =>
    metres [(3300, 2000), (4000, 2000), (5000, 2000), (6000, 2000), (8000, 2000), (10000, 2000),
     (12000, 2500), (15000, 5000), (20000, 10000), (25000, 15000), (30000, 20000), (40000, 30000),
     (50000, 40000), (60000, 55000), (80000, 80000), (100000, 110000), (120000, 140000), (150000, 180000),
     (200000, 250000), (250000, 330000), (300000, 400000), (400000, 600000), (500000, 750000),
     (600000, 900000), (800000, 1300000), (1000000, 1700000)]
  | false, .pd3 =>
    metres [(3300, 8000), (4000, 8000), (5000, 8000), (6000, 8000), (8000, 8000), (10000, 8000),
     (12000, 8000), (15000, 8000), (20000, 10000), (25000, 15000), (30000, 20000), (40000, 30000),
     (50000, 40000), (60000, 55000), (80000, 80000), (100000, 110000), (120000, 140000), (150000, 180000),
     (200000, 250000), (250000, 330000), (300000, 400000), (400000, 600000), (500000, 750000),
     (600000, 900000), (800000, 1300000), (1000000, 1700000)]

/-- Table 16 (src/data/insulation_standards/IEC_62368-1.json). -/
def g16 : Table ℚ :=
    hundredths [(20000, 100), (30000, 114), (40000, 129), (50000, 148)]

/-- Table 17 (src/data/insulation_standards/IEC_62368-1.json). -/
def g17 : Pd → Cti → Table ℚ
  | .pd1, .groupI =>
    metres [(100, 800), (125, 900), (160, 1000), (200, 1100), (250, 1250), (320, 1400), (400, 1600),
     (500, 1800), (630, 2000), (800, 2200), (1000, 2500), (1250, 2800), (1600, 3200), (2000, 4200),
     (2500, 5600), (3200, 7500), (4000, 10000), (5000, 13000), (6300, 18000), (8000, 24000),
     (10000, 32000), (12500, 42000), (16000, 56000), (20000, 75000), (25000, 100000), (32000, 125000),
     (40000, 160000), (50000, 200000), (63000, 250000), (80000, 320000), (100000, 400000),
     (125000, 500000), (160000, 630000), (200000, 800000), (250000, 1000000), (320000, 1250000),
     (400000, 1600000), (500000, 2000000), (630000, 2500000)]
  | .pd1, .groupII =>
    metres [(100, 800), (125, 900), (160, 1000), (200, 1100), (250, 1250), (320, 1400), (400, 1600),
     (500, 1800), (630, 2000), (800, 2200), (1000, 2500), (1250, 2800), (1600, 3200), (2000, 4200),
     (2500, 5600), (3200, 7500), (4000, 10000), (5000, 13000), (6300, 18000), (8000, 24000),
     (10000, 32000), (12500, 42000), (16000, 56000), (20000, 75000), (25000, 100000), (32000, 125000),
     (40000, 160000), (50000, 200000), (63000, 250000), (80000, 320000), (100000, 400000),
     (125000, 500000), (160000, 630000), (200000, 800000), (250000, 1000000), (320000, 1250000),
     (400000, 1600000), (500000, 2000000), (630000, 2500000)]
  | .pd1, .groupIIIA =>
    metres [(100, 800), (125, 900), (160, 1000), (200, 1100), (250, 1250), (320, 1400), (400, 1600),
     (500, 1800), (630, 2000), (800, 2200), (1000, 2500), (1250, 2800), (1600, 3200), (2000, 4200),
     (2500, 5600), (3200, 7500), (4000, 10000), (5000, 13000), (6300, 18000), (8000, 24000),
     (10000, 32000), (12500, 42000), (16000, 56000), (20000, 75000), (25000, 100000), (32000, 125000),
     (40000, 160000), (50000, 200000), (63000, 250000), (80000, 320000), (100000, 400000),
     (125000, 500000), (160000, 630000), (200000, 800000), (250000, 1000000), (320000, 1250000),
     (400000, 1600000), (500000, 2000000), (630000, 2500000)]
  | .pd1, .groupIIIB =>
    metres [(100, 800), (125, 900), (160, 1000), (200, 1100), (250, 1250), (320, 1400), (400, 1600),
     (500, 1800), (630, 2000), (800, 2200), (1000, 2500), (1250, 2800), (1600, 3200), (2000, 4200),
     (2500, 5600), (3200, 7500), (4000, 10000), (5000, 13000), (6300, 18000), (8000, 24000),
     (10000, 32000), (12500, 42000), (16000, 56000), (20000, 75000), (25000, 100000), (32000, 125000),
     (40000, 160000), (50000, 200000), (63000, 250000), (80000, 320000), (100000, 400000),
     (125000, 500000), (160000, 630000), (200000, 800000), (250000, 1000000), (320000, 1250000),
     (400000, 1600000), (500000, 2000000), (630000, 2500000)]
  | .pd2, .groupI =>
    metres [(100, 4000), (125, 4200), (160, 4500), (200, 4800), (250, 5000), (320, 5300), (400, 5600),
     (500, 6000), (630, 6300), (800, 6700), (1000, 7100), (1250, 7500), (1600, 8000), (2000, 10000),
     (2500, 12500), (3200, 16000), (4000, 20000), (5000, 25000), (6300, 32000), (8000, 40000),
     (10000, 50000), (12500, 63000), (16000, 80000), (20000, 100000), (25000, 125000), (32000, 160000),
     (40000, 200000), (50000, 250000), (63000, 320000), (80000, 400000), (100000, 500000),
     (125000, 630000), (160000, 800000), (200000, 1000000), (250000, 1250000), (320000, 1600000),
     (400000, 2000000), (500000, 2500000), (630000, 3200000)]
  | .pd2, .groupII =>
    metres [(100, 4000), (125, 4200), (160, 4500), (200, 4800), (250, 5000), (320, 5300), (400, 8000),
     (500, 8500), (630, 9000), (800, 9500), (1000, 10000), (1250, 10500), (1600, 11000), (2000, 14000),
     (2500, 18000), (3200, 22000), (4000, 28000), (5000, 36000), (6300, 45000), (8000, 56000),
     (10000, 71000), (12500, 90000), (16000, 110000), (20000, 140000), (25000, 180000), (32000, 220000),
     (40000, 280000), (50000, 360000), (63000, 450000), (80000, 560000), (100000, 710000),
     (125000, 900000), (160000, 1100000), (200000, 1400000), (250000, 1800000), (320000, 2200000),
     (400000, 2800000), (500000, 3600000), (630000, 4500000)]
  | .pd2, .groupIIIA =>
    metres [(100, 4000), (125, 4200), (160, 4500), (200, 4800), (250, 5000), (320, 5300), (400, 11000),
     (500, 12000), (630, 12500), (800, 13000), (1000, 14000), (1250, 15000), (1600, 16000), (2000, 20000),
     (2500, 25000), (3200, 32000), (4000, 40000), (5000, 50000), (6300, 63000), (8000, 80000),
     (10000, 100000), (12500, 125000), (16000, 160000), (20000, 200000), (25000, 250000), (32000, 320000),
     (40000, 400000), (50000, 500000), (63000, 630000), (80000, 800000), (100000, 1000000),
     (125000, 1250000), (160000, 1600000), (200000, 2000000), (250000, 2500000), (320000, 3200000),
     (400000, 4000000), (500000, 5000000), (630000, 6000000)]
  | .pd2, .groupIIIB =>
    metres [(100, 4000), (125, 4200), (160, 4500), (200, 4800), (250, 5000), (320, 5300), (400, 11000),
     (500, 12000), (630, 12500), (800, 13000), (1000, 14000), (1250, 15000), (1600, 16000), (2000, 20000),
     (2500, 25000), (3200, 32000), (4000, 40000), (5000, 50000), (6300, 63000), (8000, 80000),
     (10000, 100000), (12500, 125000), (16000, 160000), (20000, 200000), (25000, 250000), (32000, 320000),
     (40000, 400000), (50000, 500000), (63000, 630000), (80000, 800000), (100000, 1000000),
     (125000, 1250000), (160000, 1600000), (200000, 2000000), (250000, 2500000), (320000, 3200000),
     (400000, 4000000), (500000, 5000000), (630000, 6000000)]
  | .pd3, .groupI =>
    metres [(100, 10000), (125, 10500), (160, 11000), (200, 12000), (250, 12500), (320, 13000),
     (400, 14000), (500, 15000), (630, 16000), (800, 17000), (1000, 18000), (1250, 19000), (1600, 20000),
     (2000, 25000), (2500, 32000), (3200, 40000), (4000, 50000), (5000, 63000), (6300, 80000),
     (8000, 100000), (10000, 125000), (12500, 160000), (16000, 200000), (20000, 250000), (25000, 320000),
     (32000, 400000), (40000, 500000), (50000, 630000), (63000, 800000), (80000, 1000000), (100000, 1250000)]
  | .pd3, .groupII =>
    metres [(100, 10000), (125, 10500), (160, 11000), (200, 12000), (250, 12500), (320, 13000),
     (400, 16000), (500, 17000), (630, 18000), (800, 19000), (1000, 20000), (1250, 21000), (1600, 22000),
     (2000, 28000), (2500, 36000), (3200, 45000), (4000, 56000), (5000, 71000), (6300, 90000),
     (8000, 110000), (10000, 140000), (12500, 180000), (16000, 220000), (20000, 280000), (25000, 360000),
     (32000, 450000), (40000, 560000), (50000, 710000), (63000, 900000), (80000, 1100000), (100000, 1400000)]
  | .pd3, .groupIIIA =>
    metres [(100, 10000), (125, 10500), (160, 11000), (200, 12000), (250, 12500), (320, 13000),
     (400, 18000), (500, 19000), (630, 20000), (800, 21000), (1000, 22000), (1250, 24000), (1600, 25000),
     (2000, 32000), (2500, 40000), (3200, 50000), (4000, 63000), (5000, 80000), (6300, 100000),
     (8000, 125000), (10000, 160000), (12500, 200000), (16000, 250000), (20000, 320000), (25000, 400000),
     (32000, 500000), (40000, 630000), (50000, 800000), (63000, 1000000), (80000, 1250000),
     (100000, 1600000)]
  | .pd3, .groupIIIB =>
    metres [(100, 10000), (125, 10500), (160, 11000), (200, 12000), (250, 12500), (320, 13000),
     (400, 18000), (500, 19000), (630, 20000), (800, 21000), (1000, 22000), (1250, 24000), (1600, 25000),
     (2000, 32000), (2500, 40000), (3200, 50000), (4000, 63000), (5000, 80000), (6300, 100000),
     (8000, 125000), (10000, 160000), (12500, 200000), (16000, 250000), (20000, 320000), (25000, 400000),
     (32000, 500000), (40000, 630000), (50000, 800000), (63000, 1000000), (80000, 1250000),
     (100000, 1600000)]

/-- Table 18 (src/data/insulation_standards/IEC_62368-1.json). -/
def g18 : FreqTable ℚ :=
    [(100000, metres [(1000, 167), (2000, 420), (3000, 830), (4000, 1250), (5000, 1830), (6000, 2670),
        (7000, 3580), (8000, 4500), (9000, 5250), (10000, 6000)]),
     (200000, metres [(1000, 200), (2000, 430), (3000, 900), (4000, 1300), (5000, 2300), (6000, 3800),
        (7000, 5500), (8000, 8000), (9000, 10000), (10000, 11500)]),
     (400000, metres [(1000, 250), (2000, 500), (3000, 1000), (4000, 1500), (5000, 2500), (6000, 4000),
        (7000, 6800), (8000, 11000), (9000, 19000), (10000, 30000)])]

/-- Table 25 (src/data/insulation_standards/IEC_62368-1.json). -/
def g25 : Bool → Table ℚ
  | true =>
    volts [(3300, 500), (5000, 800), (8000, 1500), (15000, 2500), (25000, 4000), (40000, 6000),
     (60000, 8000), (80000, 12000), (120000, 18000)]
  | false =>
    volts [(3300, 330), (5000, 500), (8000, 800), (15000, 1500), (25000, 2500), (40000, 4000),
     (60000, 6000), (80000, 8000), (120000, 12000)]

/-- Table 26 (src/data/insulation_standards/IEC_62368-1.json). -/
def g26 : Bool → Table ℚ
  | true =>
    volts [(3300, 530), (5000, 800), (8000, 1280), (15000, 2400), (25000, 4000), (40000, 6400),
     (60000, 9600), (80000, 12800), (120000, 19200)]
  | false =>
    volts [(3300, 430), (5000, 650), (8000, 1040), (15000, 1950), (25000, 3250), (40000, 5200),
     (60000, 7800), (80000, 10400), (120000, 15600)]

/-- Table 27 (src/data/insulation_standards/IEC_62368-1.json). -/
def g27 : Bool → Table ℚ
  | true =>
    volts [(2500, 4000), (6000, 5000)]
  | false =>
    volts [(2500, 2000), (6000, 2500)]

/-- Table G.13 (src/data/insulation_standards/IEC_62368-1.json). -/
def gG13 : Bool → Table ℚ
  | true =>
    metres [(710, 500), (890, 800), (1130, 1250), (1410, 2000), (1770, 3200), (2270, 5000), (2830, 8000),
     (3540, 11200), (4550, 15000), (5700, 20000), (7100, 26000), (8950, 36000), (11350, 38000),
     (14500, 40000), (17700, 42000), (22600, 46000), (28300, 50000), (35400, 63000), (45200, 82000),
     (56600, 100000), (70700, 130000), (89100, 160000), (113100, 200000), (141400, 260000),
     (177000, 330000), (226000, 430000), (283000, 550000), (354000, 700000), (452000, 860000)]
  | false =>
    metres [(710, 250), (890, 400), (1130, 630), (1410, 1000), (1770, 1600), (2270, 2500), (2830, 4000),
     (3540, 5600), (4550, 7500), (5700, 10000), (7100, 13000), (8950, 18000), (11350, 24000),
     (14500, 28000), (17700, 34000), (22600, 41000), (28300, 50000), (35400, 63000), (45200, 82000),
     (56600, 100000), (70700, 130000), (89100, 160000), (113100, 200000), (141400, 260000),
     (177000, 330000), (226000, 430000), (283000, 550000), (354000, 700000), (452000, 860000)]

/-- Table 14 (src/data/insulation_standards/IEC_61558-1.json). -/
def h14 : Ovc → Cls → Table ℚ
  | .i, .functional =>
    volts [(500, 250), (1000, 350), (1500, 650), (3000, 950), (6000, 1100), (10000, 1500)]
  | .i, .basic =>
    volts [(500, 250), (1000, 350), (1500, 700), (3000, 1100), (6000, 1500), (10000, 2250)]
  | .i, .supplementary =>
    volts [(500, 250), (1000, 350), (1500, 700), (3000, 1100), (6000, 1500), (10000, 2250)]
  | .i, .reinforced =>
    volts [(500, 500), (1000, 700), (1500, 1400), (3000, 2200), (6000, 3000), (10000, 4500)]
  | .i, .double =>
    volts [(500, 500), (1000, 700), (1500, 1400), (3000, 2200), (6000, 3000), (10000, 4500)]
  | .ii, .functional =>
    volts [(500, 250), (1000, 350), (1500, 650), (3000, 950), (6000, 1100), (10000, 1500)]
  | .ii, .basic =>
    volts [(500, 250), (1000, 500), (1500, 1250), (3000, 1500), (6000, 2100), (10000, 2500)]
  | .ii, .supplementary =>
    volts [(500, 250), (1000, 500), (1500, 1250), (3000, 1500), (6000, 2100), (10000, 2500)]
  | .ii, .reinforced =>
    volts [(500, 500), (1000, 1000), (1500, 2500), (3000, 3000), (6000, 4200), (10000, 5000)]
  | .ii, .double =>
    volts [(500, 500), (1000, 1000), (1500, 2500), (3000, 3000), (6000, 4200), (10000, 5000)]
  | .iii, .functional =>
    volts [(500, 250), (1000, 350), (1500, 650), (3000, 950), (6000, 1100), (10000, 1500)]
  | .iii, .basic =>
    volts [(500, 250), (1000, 700), (1500, 1400), (3000, 2100), (6000, 2500), (10000, 2750)]
  | .iii, .supplementary =>
    volts [(500, 250), (1000, 700), (1500, 1400), (3000, 2100), (6000, 2500), (10000, 2750)]
  | .iii, .reinforced =>
    volts [(500, 500), (1000, 1400), (1500, 2800), (3000, 4200), (6000, 5000), (10000, 5500)]
  | .iii, .double =>
    volts [(500, 500), (1000, 1400), (1500, 2800), (3000, 4200), (6000, 5000), (10000, 5500)]
  | .iv, .functional =>
    volts [(500, 250), (1000, 350), (1500, 650), (3000, 950), (6000, 1100), (10000, 1500)]
  | .iv, .basic =>
    volts [(500, 250), (1000, 850), (1500, 1700), (3000, 2500), (6000, 2800), (10000, 3000)]
  | .iv, .supplementary =>
    volts [(500, 250), (1000, 850), (1500, 1700), (3000, 2500), (6000, 2800), (10000, 3000)]
  | .iv, .reinforced =>
    volts [(500, 500), (1000, 1700), (1500, 3400), (3000, 5000), (6000, 5600), (10000, 6000)]
  | .iv, .double =>
    volts [(500, 500), (1000, 1700), (1500, 3400), (3000, 5000), (6000, 5600), (10000, 6000)]

/-- Table 20 (src/data/insulation_standards/IEC_61558-1.json); a missing key reads as an empty table. -/
def h20 : Ovc → Cls → Pd → Table ℚ
  | .i, .functional, .pd1 =>
    []
  | .i, .functional, .pd2 =>
    []
  | .i, .functional, .pd3 =>
    []
  | .i, .basic, .pd1 =>
    []
  | .i, .basic, .pd2 =>
    metres [(500, 2000), (1000, 2000), (1500, 2000), (3000, 5000), (6000, 15000), (10000, 30000)]
  | .i, .basic, .pd3 =>
    metres [(500, 8000), (1000, 8000), (1500, 8000), (3000, 8000), (6000, 15000), (10000, 30000)]
  | .i, .supplementary, .pd1 =>
    []
  | .i, .supplementary, .pd2 =>
    metres [(500, 2000), (1000, 2000), (1500, 2000), (3000, 5000), (6000, 15000), (10000, 30000)]
  | .i, .supplementary, .pd3 =>
    metres [(500, 8000), (1000, 8000), (1500, 8000), (3000, 8000), (6000, 15000), (10000, 30000)]
  | .i, .reinforced, .pd1 =>
    []
  | .i, .reinforced, .pd2 =>
    metres [(500, 2000), (1000, 2000), (1500, 5000), (3000, 15000), (6000, 30000), (10000, 55000)]
  | .i, .reinforced, .pd3 =>
    metres [(500, 8000), (1000, 8000), (1500, 8000), (3000, 15000), (6000, 30000), (10000, 55000)]
  | .i, .double, .pd1 =>
    []
  | .i, .double, .pd2 =>
    metres [(500, 2000), (1000, 2000), (1500, 5000), (3000, 15000), (6000, 30000), (10000, 55000)]
  | .i, .double, .pd3 =>
    metres [(500, 8000), (1000, 8000), (1500, 8000), (3000, 15000), (6000, 30000), (10000, 55000)]
  | .ii, .functional, .pd1 =>
    []
  | .ii, .functional, .pd2 =>
    []
  | .ii, .functional, .pd3 =>
    []
  | .ii, .basic, .pd1 =>
    []
  | .ii, .basic, .pd2 =>
    metres [(500, 2000), (1000, 2000), (1500, 5000), (3000, 15000), (6000, 30000), (10000, 55000)]
  | .ii, .basic, .pd3 =>
    metres [(500, 8000), (1000, 8000), (1500, 8000), (3000, 15000), (6000, 30000), (10000, 55000)]
  | .ii, .supplementary, .pd1 =>
    []
  | .ii, .supplementary, .pd2 =>
    metres [(500, 2000), (1000, 2000), (1500, 5000), (3000, 15000), (6000, 30000), (10000, 55000)]
  | .ii, .supplementary, .pd3 =>
    metres [(500, 8000), (1000, 8000), (1500, 8000), (3000, 15000), (6000, 30000), (10000, 55000)]
  | .ii, .reinforced, .pd1 =>
    []
  | .ii, .reinforced, .pd2 =>
    metres [(500, 2000), (1000, 5000), (1500, 15000), (3000, 30000), (6000, 55000), (10000, 80000)]
  | .ii, .reinforced, .pd3 =>
    metres [(500, 8000), (1000, 8000), (1500, 15000), (3000, 30000), (6000, 55000), (10000, 80000)]
  | .ii, .double, .pd1 =>
    []
  | .ii, .double, .pd2 =>
    metres [(500, 2000), (1000, 5000), (1500, 15000), (3000, 30000), (6000, 55000), (10000, 80000)]
  | .ii, .double, .pd3 =>
    metres [(500, 8000), (1000, 8000), (1500, 15000), (3000, 30000), (6000, 55000), (10000, 80000)]
  | .iii, .functional, .pd1 =>
    []
  | .iii, .functional, .pd2 =>
    []
  | .iii, .functional, .pd3 =>
    []
  | .iii, .basic, .pd1 =>
    []
  | .iii, .basic, .pd2 =>
    metres [(500, 2000), (1000, 5000), (1500, 15000), (3000, 30000), (6000, 55000), (10000, 80000)]
  | .iii, .basic, .pd3 =>
    metres [(500, 8000), (1000, 8000), (1500, 15000), (3000, 30000), (6000, 55000), (10000, 80000)]
  | .iii, .supplementary, .pd1 =>
    []
  | .iii, .supplementary, .pd2 =>
    metres [(500, 2000), (1000, 5000), (1500, 15000), (3000, 30000), (6000, 55000), (10000, 80000)]
  | .iii, .supplementary, .pd3 =>
    metres [(500, 8000), (1000, 8000), (1500, 15000), (3000, 30000), (6000, 55000), (10000, 80000)]
  | .iii, .reinforced, .pd1 =>
    []
  | .iii, .reinforced, .pd2 =>
    metres [(500, 5000), (1000, 15000), (1500, 30000), (3000, 55000), (6000, 80000), (10000, 140000)]
  | .iii, .reinforced, .pd3 =>
    metres [(500, 8000), (1000, 15000), (1500, 30000), (3000, 55000), (6000, 80000), (10000, 140000)]
  | .iii, .double, .pd1 =>
    []
  | .iii, .double, .pd2 =>
    metres [(500, 5000), (1000, 15000), (1500, 30000), (3000, 55000), (6000, 80000), (10000, 140000)]
  | .iii, .double, .pd3 =>
    metres [(500, 8000), (1000, 15000), (1500, 30000), (3000, 55000), (6000, 80000), (10000, 140000)]
  | .iv, .functional, .pd1 =>
    []
  | .iv, .functional, .pd2 =>
    []
  | .iv, .functional, .pd3 =>
    []
  | .iv, .basic, .pd1 =>
    []
  | .iv, .basic, .pd2 =>
    metres [(500, 5000), (1000, 15000), (1500, 30000), (3000, 55000), (6000, 80000), (10000, 140000)]
  | .iv, .basic, .pd3 =>
    metres [(500, 8000), (1000, 15000), (1500, 30000), (3000, 55000), (6000, 80000), (10000, 140000)]
  | .iv, .supplementary, .pd1 =>
    []
  | .iv, .supplementary, .pd2 =>
    metres [(500, 5000), (1000, 15000), (1500, 30000), (3000, 55000), (6000, 80000), (10000, 140000)]
  | .iv, .supplementary, .pd3 =>
    metres [(500, 8000), (1000, 15000), (1500, 30000), (3000, 55000), (6000, 80000), (10000, 140000)]
  | .iv, .reinforced, .pd1 =>
    []
  | .iv, .reinforced, .pd2 =>
    metres [(500, 15000), (1000, 30000), (1500, 55000), (3000, 80000), (6000, 140000), (10000, 250000)]
  | .iv, .reinforced, .pd3 =>
    metres [(500, 15000), (1000, 30000), (1500, 55000), (3000, 80000), (6000, 140000), (10000, 250000)]
  | .iv, .double, .pd1 =>
    []
  | .iv, .double, .pd2 =>
    metres [(500, 15000), (1000, 30000), (1500, 55000), (3000, 80000), (6000, 140000), (10000, 250000)]
  | .iv, .double, .pd3 =>
    metres [(500, 15000), (1000, 30000), (1500, 55000), (3000, 80000), (6000, 140000), (10000, 250000)]

/-- Table 21 (src/data/insulation_standards/IEC_61558-1.json); a missing key reads as an empty table. -/
def h21 : Cti → Cls → Pd → Table ℚ
  | .groupI, .functional, .pd1 =>
    []
  | .groupI, .functional, .pd2 =>
    []
  | .groupI, .functional, .pd3 =>
    []
  | .groupI, .basic, .pd1 =>
    metres [(500, 1800), (1000, 2500), (1500, 3000), (3000, 7000), (6000, 17000), (10000, 32000)]
  | .groupI, .basic, .pd2 =>
    metres [(500, 6000), (1000, 7000), (1500, 8000), (3000, 15000), (6000, 30000), (10000, 55000)]
  | .groupI, .basic, .pd3 =>
    metres [(500, 15000), (1000, 18000), (1500, 20000), (3000, 39000), (6000, 77000), (10000, 125000)]
  | .groupI, .supplementary, .pd1 =>
    metres [(500, 1800), (1000, 2500), (1500, 3000), (3000, 7000), (6000, 17000), (10000, 32000)]
  | .groupI, .supplementary, .pd2 =>
    metres [(500, 6000), (1000, 7000), (1500, 8000), (3000, 15000), (6000, 30000), (10000, 55000)]
  | .groupI, .supplementary, .pd3 =>
    metres [(500, 15000), (1000, 18000), (1500, 20000), (3000, 39000), (6000, 77000), (10000, 125000)]
  | .groupI, .reinforced, .pd1 =>
    metres [(500, 2500), (1000, 4000), (1500, 7000), (3000, 17000), (6000, 40000), (10000, 75000)]
  | .groupI, .reinforced, .pd2 =>
    metres [(500, 7000), (1000, 10000), (1500, 16000), (3000, 30000), (6000, 60000), (10000, 100000)]
  | .groupI, .reinforced, .pd3 =>
    metres [(500, 18000), (1000, 25000), (1500, 42000), (3000, 77000), (6000, 160000), (10000, 250000)]
  | .groupI, .double, .pd1 =>
    metres [(500, 2500), (1000, 4000), (1500, 7000), (3000, 17000), (6000, 40000), (10000, 75000)]
  | .groupI, .double, .pd2 =>
    metres [(500, 7000), (1000, 10000), (1500, 16000), (3000, 30000), (6000, 60000), (10000, 100000)]
  | .groupI, .double, .pd3 =>
    metres [(500, 18000), (1000, 25000), (1500, 42000), (3000, 77000), (6000, 160000), (10000, 250000)]
  | .groupII, .functional, .pd1 =>
    []
  | .groupII, .functional, .pd2 =>
    []
  | .groupII, .functional, .pd3 =>
    []
  | .groupII, .basic, .pd1 =>
    metres [(500, 1800), (1000, 2500), (1500, 3000), (3000, 7000), (6000, 17000), (10000, 32000)]
  | .groupII, .basic, .pd2 =>
    metres [(500, 9000), (1000, 10000), (1500, 11000), (3000, 21000), (6000, 43000), (10000, 71000)]
  | .groupII, .basic, .pd3 =>
    metres [(500, 17000), (1000, 20000), (1500, 22000), (3000, 42000), (6000, 86000), (10000, 140000)]
  | .groupII, .supplementary, .pd1 =>
    metres [(500, 1800), (1000, 2500), (1500, 3000), (3000, 7000), (6000, 17000), (10000, 32000)]
  | .groupII, .supplementary, .pd2 =>
    metres [(500, 9000), (1000, 10000), (1500, 11000), (3000, 21000), (6000, 43000), (10000, 71000)]
  | .groupII, .supplementary, .pd3 =>
    metres [(500, 17000), (1000, 20000), (1500, 22000), (3000, 42000), (6000, 86000), (10000, 140000)]
  | .groupII, .reinforced, .pd1 =>
    metres [(500, 2500), (1000, 4000), (1500, 7000), (3000, 17000), (6000, 40000), (10000, 75000)]
  | .groupII, .reinforced, .pd2 =>
    metres [(500, 10000), (1000, 14000), (1500, 20000), (3000, 43000), (6000, 86000), (10000, 140000)]
  | .groupII, .reinforced, .pd3 =>
    metres [(500, 20000), (1000, 28000), (1500, 42000), (3000, 86000), (6000, 172000), (10000, 280000)]
  | .groupII, .double, .pd1 =>
    metres [(500, 2500), (1000, 4000), (1500, 7000), (3000, 17000), (6000, 40000), (10000, 75000)]
  | .groupII, .double, .pd2 =>
    metres [(500, 10000), (1000, 14000), (1500, 20000), (3000, 43000), (6000, 86000), (10000, 140000)]
  | .groupII, .double, .pd3 =>
    metres [(500, 20000), (1000, 28000), (1500, 42000), (3000, 86000), (6000, 172000), (10000, 280000)]
  | .groupIIIA, .functional, .pd1 =>
    []
  | .groupIIIA, .functional, .pd2 =>
    []
  | .groupIIIA, .functional, .pd3 =>
    []
  | .groupIIIA, .basic, .pd1 =>
    metres [(500, 1800), (1000, 2500), (1500, 3000), (3000, 7000), (6000, 17000), (10000, 32000)]
  | .groupIIIA, .basic, .pd2 =>
    metres [(500, 12000), (1000, 14000), (1500, 16000), (3000, 30000), (6000, 60000), (10000, 100000)]
  | .groupIIIA, .basic, .pd3 =>
    metres [(500, 19000), (1000, 22000), (1500, 25000), (3000, 47000), (6000, 95000), (10000, 160000)]
  | .groupIIIA, .supplementary, .pd1 =>
    metres [(500, 1800), (1000, 2500), (1500, 3000), (3000, 7000), (6000, 17000), (10000, 32000)]
  | .groupIIIA, .supplementary, .pd2 =>
    metres [(500, 12000), (1000, 14000), (1500, 16000), (3000, 30000), (6000, 60000), (10000, 100000)]
  | .groupIIIA, .supplementary, .pd3 =>
    metres [(500, 19000), (1000, 22000), (1500, 25000), (3000, 47000), (6000, 95000), (10000, 160000)]
  | .groupIIIA, .reinforced, .pd1 =>
    metres [(500, 2500), (1000, 4000), (1500, 7000), (3000, 17000), (6000, 40000), (10000, 75000)]
  | .groupIIIA, .reinforced, .pd2 =>
    metres [(500, 14000), (1000, 20000), (1500, 30000), (3000, 60000), (6000, 120000), (10000, 200000)]
  | .groupIIIA, .reinforced, .pd3 =>
    metres [(500, 22000), (1000, 30000), (1500, 47000), (3000, 95000), (6000, 192000), (10000, 320000)]
  | .groupIIIA, .double, .pd1 =>
    metres [(500, 2500), (1000, 4000), (1500, 7000), (3000, 17000), (6000, 40000), (10000, 75000)]
  | .groupIIIA, .double, .pd2 =>
    metres [(500, 14000), (1000, 20000), (1500, 30000), (3000, 60000), (6000, 120000), (10000, 200000)]
  | .groupIIIA, .double, .pd3 =>
    metres [(500, 22000), (1000, 30000), (1500, 47000), (3000, 95000), (6000, 192000), (10000, 320000)]
  | .groupIIIB, .functional, .pd1 =>
    []
  | .groupIIIB, .functional, .pd2 =>
    []
  | .groupIIIB, .functional, .pd3 =>
    []
  | .groupIIIB, .basic, .pd1 =>
    metres [(500, 1800), (1000, 2500), (1500, 3000), (3000, 7000), (6000, 17000), (10000, 32000)]
  | .groupIIIB, .basic, .pd2 =>
    metres [(500, 12000), (1000, 14000), (1500, 16000), (3000, 30000), (6000, 60000), (10000, 100000)]
  | .groupIIIB, .basic, .pd3 =>
    metres [(500, 19000), (1000, 22000), (1500, 25000), (3000, 47000), (6000, 95000), (10000, 160000)]
  | .groupIIIB, .supplementary, .pd1 =>
    metres [(500, 1800), (1000, 2500), (1500, 3000), (3000, 7000), (6000, 17000), (10000, 32000)]
  | .groupIIIB, .supplementary, .pd2 =>
    metres [(500, 12000), (1000, 14000), (1500, 16000), (3000, 30000), (6000, 60000), (10000, 100000)]
  | .groupIIIB, .supplementary, .pd3 =>
    metres [(500, 19000), (1000, 22000), (1500, 25000), (3000, 47000), (6000, 95000), (10000, 160000)]
  | .groupIIIB, .reinforced, .pd1 =>
    metres [(500, 3600), (1000, 5000), (1500, 7000), (3000, 17000), (6000, 40000), (10000, 75000)]
  | .groupIIIB, .reinforced, .pd2 =>
    metres [(500, 24000), (1000, 28000), (1500, 32000), (3000, 60000), (6000, 120000), (10000, 200000)]
  | .groupIIIB, .reinforced, .pd3 =>
    metres [(500, 38000), (1000, 44000), (1500, 50000), (3000, 95000), (6000, 192000), (10000, 320000)]
  | .groupIIIB, .double, .pd1 =>
    metres [(500, 3600), (1000, 5000), (1500, 7000), (3000, 17000), (6000, 40000), (10000, 75000)]
  | .groupIIIB, .double, .pd2 =>
    metres [(500, 24000), (1000, 28000), (1500, 32000), (3000, 60000), (6000, 120000), (10000, 200000)]
  | .groupIIIB, .double, .pd3 =>
    metres [(500, 38000), (1000, 44000), (1500, 50000), (3000, 95000), (6000, 192000), (10000, 320000)]

/-- Table 22, thin layers (src/data/insulation_standards/IEC_61558-1.json); a missing key reads as an empty table. -/
def h22 : Cls → Table ℚ
  | .functional =>
    []
  | .basic =>
    []
  | .supplementary =>
    metres [(500, 500), (1000, 500), (1500, 800), (3000, 1500), (6000, 2000), (10000, 2500)]
  | .reinforced =>
    metres [(500, 1000), (1000, 1000), (1500, 1500), (3000, 3000), (6000, 4000), (10000, 5000)]
  | .double =>
    metres [(500, 1000), (1000, 1000), (1500, 1500), (3000, 3000), (6000, 4000), (10000, 5000)]

/-- Table 103 (src/data/insulation_standards/IEC_61558-2-16.json). -/
def h103 : Bool → Table ℚ
  | true =>
    metres [(3300, 400), (4000, 700), (5000, 1300), (6000, 2000), (8000, 5000), (10000, 8700),
     (12000, 11800), (15000, 17000), (20000, 27000), (25000, 38000), (30000, 54000), (40000, 85000),
     (50000, 110000), (60000, 144000), (80000, 206000)]
  | false =>
    metres [(3300, 100), (4000, 200), (5000, 400), (6000, 600), (8000, 1300), (10000, 2600), (12000, 4200),
     (15000, 7600), (20000, 12700), (25000, 18000), (30000, 24000), (40000, 38000), (50000, 57000),
     (60000, 79000), (80000, 110000)]

/-- Table 104 (src/data/insulation_standards/IEC_61558-2-16.json). -/
def h104 : Bool → Table ℚ
  | true =>
    metres [(6000, 1200), (8000, 3600), (10000, 10000), (12000, 28000), (14000, 47000), (16000, 80000),
     (18000, 134000), (20000, 220000)]
  | false =>
    metres [(6000, 600), (8000, 1800), (10000, 5000), (12000, 14000), (14000, 23500), (16000, 40000),
     (18000, 67000), (20000, 110000)]

/-- Tables 105 to 110 (src/data/insulation_standards/IEC_61558-2-16.json). -/
def hHigh : Bool → Pd → FreqTable ℚ
  | true, .pd1 =>
    [(100000, metres [(1000, 300), (2000, 800), (3000, 1700), (4000, 2500), (5000, 3700), (6000, 5300),
        (7000, 7200), (8000, 9000), (9000, 10500), (10000, 12000), (11000, 13700), (12000, 17000),
        (13000, 24000), (14000, 33000), (15000, 46000), (16000, 63000), (17000, 88000), (18000, 122000)]),
     (150000, metres [(3000, 1700), (4000, 2600), (5000, 3700), (6000, 5400), (7000, 7400), (8000, 10000),
        (9000, 13500), (10000, 17500), (11000, 23800), (12000, 32500), (13000, 47000), (14000, 66500),
        (15000, 96000)]),
     (200000, metres [(3000, 1800), (4000, 2600), (5000, 3800), (6000, 5400), (7000, 7600), (8000, 11000),
        (9000, 16400), (10000, 23000), (11000, 34000), (12000, 48000), (13000, 70000), (14000, 100000),
        (15000, 146000)]),
     (300000, metres [(3000, 1800), (4000, 2800), (5000, 4400), (6000, 6700), (7000, 10600), (8000, 16500),
        (9000, 27200), (10000, 41500), (11000, 67000), (12000, 106000)]),
     (400000, metres [(3000, 1800), (4000, 3000), (5000, 5000), (6000, 8000), (7000, 13600), (8000, 22000),
        (9000, 38000), (10000, 60000), (11000, 100000), (12000, 164000)]),
     (500000, metres [(3000, 1800), (4000, 3300), (5000, 6000), (6000, 11000), (7000, 21700), (8000, 40000),
        (9000, 83300), (10000, 160000)]),
     (600000, metres [(3000, 1800), (4000, 3500), (5000, 7000), (6000, 14000), (7000, 29900), (8000, 58000),
        (9000, 128700), (10000, 260000)]),
     (700000, metres [(3000, 1800), (4000, 3800), (5000, 8000), (6000, 17000), (7000, 38000), (8000, 76000),
        (9000, 174000), (10000, 360000)]),
     (800000, metres [(3000, 1800), (4000, 4900), (5000, 15300), (6000, 44700), (7000, 158700)]),
     (900000, metres [(3000, 1800), (4000, 5900), (5000, 22700), (6000, 72300), (7000, 279300)]),
     (1000000, metres [(3000, 1800), (4000, 7000), (5000, 30000), (6000, 100000), (7000, 400000)]),
     (2000000, metres [(2000, 3000), (3000, 16000), (4000, 90000), (5000, 400000)]),
     (3000000, metres [(1000, 6000), (2000, 56000), (3000, 400000)])]
  | true, .pd2 =>
    [(100000, metres [(1000, 400), (2000, 1000), (3000, 2000), (4000, 3000), (5000, 4400), (6000, 6400),
        (7000, 8600), (8000, 10800), (9000, 12600), (10000, 14400), (11000, 16400), (12000, 20400),
        (13000, 28800), (14000, 39600), (15000, 55200), (16000, 75600), (17000, 105600), (18000, 146400)]),
     (150000, metres [(3000, 2100), (4000, 3100), (5000, 4500), (6000, 6400), (7000, 8900), (8000, 12000),
        (9000, 16100), (10000, 21000), (11000, 28600), (12000, 39000), (13000, 56400), (14000, 79800),
        (15000, 115200)]),
     (200000, metres [(3000, 2200), (4000, 3100), (5000, 4600), (6000, 6500), (7000, 9100), (8000, 13200),
        (9000, 19700), (10000, 27600), (11000, 40800), (12000, 57600), (13000, 84000), (14000, 120000),
        (15000, 175200)]),
     (300000, metres [(3000, 2200), (4000, 3400), (5000, 5300), (6000, 8000), (7000, 12700), (8000, 19800),
        (9000, 32600), (10000, 49800), (11000, 80400), (12000, 127200)]),
     (400000, metres [(3000, 2200), (4000, 3600), (5000, 6000), (6000, 9600), (7000, 16300), (8000, 26400),
        (9000, 45600), (10000, 72000), (11000, 120000), (12000, 196800)]),
     (500000, metres [(3000, 2200), (4000, 3900), (5000, 7200), (6000, 13200), (7000, 26100), (8000, 48000),
        (9000, 100000), (10000, 192000)]),
     (600000, metres [(3000, 2200), (4000, 4200), (5000, 8400), (6000, 16800), (7000, 35800), (8000, 69600),
        (9000, 154400), (10000, 312000)]),
     (700000, metres [(3000, 2200), (4000, 4600), (5000, 9600), (6000, 20400), (7000, 45600), (8000, 91200),
        (9000, 208800), (10000, 432000)]),
     (800000, metres [(3000, 2200), (4000, 5800), (5000, 18400), (6000, 53600), (7000, 190400)]),
     (900000, metres [(3000, 2200), (4000, 7100), (5000, 27200), (6000, 86800), (7000, 335200)]),
     (1000000, metres [(3000, 2200), (4000, 8400), (5000, 36000), (6000, 120000), (7000, 480000)]),
     (2000000, metres [(2000, 3600), (3000, 19200), (4000, 108000), (5000, 480000)]),
     (3000000, metres [(1000, 7200), (2000, 67200), (3000, 480000)])]
  | true, .pd3 =>
    [(100000, metres [(1000, 500), (2000, 1200), (3000, 2300), (4000, 3500), (5000, 5100), (6000, 7500),
        (7000, 10000), (8000, 12600), (9000, 14700), (10000, 16800), (11000, 19100), (12000, 23800),
        (13000, 33600), (14000, 46200), (15000, 64400), (16000, 88200), (17000, 123200), (18000, 170800)]),
     (150000, metres [(3000, 2400), (4000, 3600), (5000, 5200), (6000, 7500), (7000, 10300), (8000, 14000),
        (9000, 18800), (10000, 24500), (11000, 33400), (12000, 45500), (13000, 65800), (14000, 93100),
        (15000, 134400)]),
     (200000, metres [(3000, 2500), (4000, 3600), (5000, 5300), (6000, 7600), (7000, 10600), (8000, 15400),
        (9000, 23000), (10000, 32200), (11000, 47600), (12000, 67200), (13000, 98000), (14000, 140000),
        (15000, 204400)]),
     (300000, metres [(3000, 2500), (4000, 3900), (5000, 6200), (6000, 9400), (7000, 14800), (8000, 23100),
        (9000, 38100), (10000, 58100), (11000, 93800), (12000, 148400)]),
     (400000, metres [(3000, 2500), (4000, 4200), (5000, 7000), (6000, 11200), (7000, 19000), (8000, 30800),
        (9000, 53200), (10000, 84000), (11000, 140000), (12000, 229600)]),
     (500000, metres [(3000, 2500), (4000, 4600), (5000, 8400), (6000, 15400), (7000, 30400), (8000, 56000),
        (9000, 116700), (10000, 224000)]),
     (600000, metres [(3000, 2500), (4000, 4900), (5000, 9800), (6000, 19600), (7000, 41800), (8000, 81200),
        (9000, 180100), (10000, 364000)]),
     (700000, metres [(3000, 2500), (4000, 5300), (5000, 11200), (6000, 23800), (7000, 53200), (8000, 106400),
        (9000, 243600), (10000, 504000)]),
     (800000, metres [(3000, 2500), (4000, 6800), (5000, 21500), (6000, 62500), (7000, 222100)]),
     (900000, metres [(3000, 2500), (4000, 8300), (5000, 31700), (6000, 101300), (7000, 391100)]),
     (1000000, metres [(3000, 2500), (4000, 9800), (5000, 42000), (6000, 140000), (7000, 560000)]),
     (2000000, metres [(2000, 4200), (3000, 22400), (4000, 126000), (5000, 560000)]),
     (3000000, metres [(1000, 8400), (2000, 78400), (3000, 560000)])]
  | false, .pd1 =>
    [(100000, metres [(1000, 200), (2000, 400), (3000, 800), (4000, 1300), (5000, 1800), (6000, 2700),
        (7000, 3600), (8000, 4500), (9000, 5300), (10000, 6000), (11000, 6800), (12000, 8500),
        (13000, 12000), (14000, 16500), (15000, 23000), (16000, 31500), (17000, 44000), (18000, 61000)]),
     (150000, metres [(3000, 900), (4000, 1300), (5000, 1900), (6000, 2700), (7000, 3700), (8000, 5000),
        (9000, 6700), (10000, 8800), (11000, 11900), (12000, 16300), (13000, 23500), (14000, 33300),
        (15000, 48000)]),
     (200000, metres [(3000, 900), (4000, 1300), (5000, 1900), (6000, 2700), (7000, 3800), (8000, 5500),
        (9000, 8200), (10000, 11500), (11000, 17000), (12000, 24000), (13000, 35000), (14000, 50000),
        (15000, 73000)]),
     (300000, metres [(3000, 900), (4000, 1400), (5000, 2200), (6000, 3400), (7000, 5300), (8000, 8300),
        (9000, 13600), (10000, 20800), (11000, 33500), (12000, 53000)]),
     (400000, metres [(3000, 900), (4000, 1500), (5000, 2500), (6000, 4000), (7000, 6800), (8000, 11000),
        (9000, 19000), (10000, 30000), (11000, 50000), (12000, 82000)]),
     (500000, metres [(3000, 900), (4000, 1600), (5000, 3000), (6000, 5500), (7000, 10900), (8000, 20000),
        (9000, 41700), (10000, 80000)]),
     (600000, metres [(3000, 900), (4000, 1800), (5000, 3500), (6000, 7000), (7000, 14900), (8000, 29000),
        (9000, 64300), (10000, 130000)]),
     (700000, metres [(3000, 900), (4000, 1900), (5000, 4000), (6000, 8500), (7000, 19000), (8000, 38000),
        (9000, 87000), (10000, 180000)]),
     (800000, metres [(3000, 900), (4000, 2400), (5000, 7700), (6000, 22300), (7000, 79300)]),
     (900000, metres [(3000, 900), (4000, 3000), (5000, 11300), (6000, 36200), (7000, 139700)]),
     (1000000, metres [(3000, 900), (4000, 3500), (5000, 15000), (6000, 50000), (7000, 200000)]),
     (2000000, metres [(2000, 1500), (3000, 8000), (4000, 45000), (5000, 200000)]),
     (3000000, metres [(1000, 3000), (2000, 28000), (3000, 200000)])]
  | false, .pd2 =>
    [(100000, metres [(1000, 200), (2000, 500), (3000, 1000), (4000, 1500), (5000, 2200), (6000, 3200),
        (7000, 4300), (8000, 5400), (9000, 6300), (10000, 7200), (11000, 8200), (12000, 10200),
        (13000, 14400), (14000, 19800), (15000, 27600), (16000, 37800), (17000, 52800), (18000, 73200)]),
     (150000, metres [(3000, 1000), (4000, 1500), (5000, 2200), (6000, 3200), (7000, 4400), (8000, 6000),
        (9000, 8100), (10000, 10500), (11000, 14300), (12000, 19500), (13000, 28200), (14000, 39900),
        (15000, 57600)]),
     (200000, metres [(3000, 1100), (4000, 1600), (5000, 2300), (6000, 3200), (7000, 4600), (8000, 6600),
        (9000, 9800), (10000, 13800), (11000, 20400), (12000, 28800), (13000, 42000), (14000, 60000),
        (15000, 87600)]),
     (300000, metres [(3000, 1100), (4000, 1700), (5000, 2600), (6000, 4000), (7000, 6400), (8000, 9900),
        (9000, 16300), (10000, 24900), (11000, 40200), (12000, 63600)]),
     (400000, metres [(3000, 1100), (4000, 1800), (5000, 3000), (6000, 4800), (7000, 8200), (8000, 13200),
        (9000, 22800), (10000, 36000), (11000, 60000), (12000, 98400)]),
     (500000, metres [(3000, 1100), (4000, 2000), (5000, 3600), (6000, 6600), (7000, 13000), (8000, 24000),
        (9000, 50000), (10000, 96000)]),
     (600000, metres [(3000, 1100), (4000, 2100), (5000, 4200), (6000, 8400), (7000, 17900), (8000, 34800),
        (9000, 77200), (10000, 156000)]),
     (700000, metres [(3000, 1100), (4000, 2300), (5000, 4800), (6000, 10200), (7000, 22800), (8000, 45600),
        (9000, 104400), (10000, 216000)]),
     (800000, metres [(3000, 1100), (4000, 2900), (5000, 9200), (6000, 26800), (7000, 95200)]),
     (900000, metres [(3000, 1100), (4000, 3600), (5000, 13600), (6000, 43400), (7000, 167600)]),
     (1000000, metres [(3000, 1100), (4000, 4200), (5000, 18000), (6000, 60000), (7000, 240000)]),
     (2000000, metres [(2000, 1800), (3000, 9600), (4000, 54000), (5000, 240000)]),
     (3000000, metres [(1000, 3600), (2000, 33600), (3000, 240000)])]
  | false, .pd3 =>
    [(100000, metres [(1000, 200), (2000, 600), (3000, 1200), (4000, 1800), (5000, 2600), (6000, 3700),
        (7000, 5000), (8000, 6300), (9000, 7400), (10000, 8400), (11000, 9600), (12000, 11900),
        (13000, 16800), (14000, 23100), (15000, 32200), (16000, 44100), (17000, 61600), (18000, 85400)]),
     (150000, metres [(3000, 1200), (4000, 1800), (5000, 2600), (6000, 3800), (7000, 5200), (8000, 7000),
        (9000, 9400), (10000, 12300), (11000, 16700), (12000, 22800), (13000, 32900), (14000, 46600),
        (15000, 67200)]),
     (200000, metres [(3000, 1300), (4000, 1800), (5000, 2700), (6000, 3800), (7000, 5300), (8000, 7700),
        (9000, 11500), (10000, 16100), (11000, 23800), (12000, 33600), (13000, 49000), (14000, 70000),
        (15000, 102200)]),
     (300000, metres [(3000, 1300), (4000, 2000), (5000, 3100), (6000, 4700), (7000, 7400), (8000, 11600),
        (9000, 19000), (10000, 29100), (11000, 46900), (12000, 74200)]),
     (400000, metres [(3000, 1300), (4000, 2100), (5000, 3500), (6000, 5600), (7000, 9500), (8000, 15400),
        (9000, 26600), (10000, 42000), (11000, 70000), (12000, 114800)]),
     (500000, metres [(3000, 1300), (4000, 2300), (5000, 4200), (6000, 7700), (7000, 15200), (8000, 28000),
        (9000, 58300), (10000, 112000)]),
     (600000, metres [(3000, 1300), (4000, 2500), (5000, 4900), (6000, 9800), (7000, 20900), (8000, 40600),
        (9000, 90100), (10000, 182000)]),
     (700000, metres [(3000, 1300), (4000, 2700), (5000, 5600), (6000, 11900), (7000, 26600), (8000, 53200),
        (9000, 121800), (10000, 252000)]),
     (800000, metres [(3000, 1300), (4000, 3400), (5000, 10700), (6000, 31300), (7000, 111100)]),
     (900000, metres [(3000, 1300), (4000, 4200), (5000, 15900), (6000, 50600), (7000, 195500)]),
     (1000000, metres [(3000, 1300), (4000, 4900), (5000, 21000), (6000, 70000), (7000, 280000)]),
     (2000000, metres [(2000, 2100), (3000, 11200), (4000, 63000), (5000, 280000)]),
     (3000000, metres [(1000, 4200), (2000, 39200), (3000, 280000)])]

/-- Table 7 (src/data/insulation_standards/IEC_60335-1.json). -/
def k7 : Cls → Table ℚ
  | .functional =>
    []
  | .basic =>
    volts [(1500, 1250), (2500, 1250)]
  | .supplementary =>
    volts [(1500, 1250), (2500, 1750)]
  | .reinforced =>
    volts [(1500, 2500), (2500, 3000)]
  | .double =>
    volts [(1500, 2500), (2500, 3000)]

/-- Table 15 (src/data/insulation_standards/IEC_60335-1.json). -/
def k15 : Ovc → Table ℚ
  | .i =>
    volts [(500, 330), (1500, 800), (3000, 1500)]
  | .ii =>
    volts [(500, 500), (1500, 1500), (3000, 2500)]
  | .iii =>
    volts [(500, 800), (1500, 2500), (3000, 4000)]
  | .iv =>
    []

/-- Table 16 (src/data/insulation_standards/IEC_60335-1.json). -/
def k16 : Table ℚ :=
    metres [(3300, 5000), (5000, 5000), (8000, 5000), (15000, 5000), (25000, 15000), (40000, 30000),
     (60000, 55000), (80000, 80000), (100000, 110000)]

/-- Table 17 (src/data/insulation_standards/IEC_60335-1.json). -/
def k17 : Pd → Cti → Table ℚ
  | .pd1, .groupI =>
    metres [(500, 1800), (1250, 2800), (2500, 5600), (4000, 10000), (5000, 13000), (8000, 18000),
     (10000, 24000), (12500, 32000), (16000, 42000), (20000, 56000), (25000, 75000), (32000, 100000),
     (40000, 125000), (50000, 160000), (63000, 200000), (80000, 250000), (100000, 320000), (125000, 400000)]
  | .pd1, .groupII =>
    metres [(500, 1800), (1250, 2800), (2500, 5600), (4000, 10000), (5000, 13000), (8000, 18000),
     (10000, 24000), (12500, 32000), (16000, 42000), (20000, 56000), (25000, 75000), (32000, 100000),
     (40000, 125000), (50000, 160000), (63000, 200000), (80000, 250000), (100000, 320000), (125000, 400000)]
  | .pd1, .groupIIIA =>
    metres [(500, 1800), (1250, 2800), (2500, 5600), (4000, 10000), (5000, 13000), (8000, 18000),
     (10000, 24000), (12500, 32000), (16000, 42000), (20000, 56000), (25000, 75000), (32000, 100000),
     (40000, 125000), (50000, 160000), (63000, 200000), (80000, 250000), (100000, 320000), (125000, 400000)]
  | .pd1, .groupIIIB =>
    metres [(500, 1800), (1250, 2800), (2500, 5600), (4000, 10000), (5000, 13000), (8000, 18000),
     (10000, 24000), (12500, 32000), (16000, 42000), (20000, 56000), (25000, 75000), (32000, 100000),
     (40000, 125000), (50000, 160000), (63000, 200000), (80000, 250000), (100000, 320000), (125000, 400000)]
  | .pd2, .groupI =>
    metres [(500, 6000), (1250, 7500), (2500, 12500), (4000, 20000), (5000, 25000), (8000, 32000),
     (10000, 40000), (12500, 50000), (16000, 63000), (20000, 80000), (25000, 100000), (32000, 125000),
     (40000, 160000), (50000, 200000), (63000, 250000), (80000, 320000), (100000, 400000), (125000, 500000)]
  | .pd2, .groupII =>
    metres [(500, 8500), (1250, 10500), (2500, 18000), (4000, 28000), (5000, 36000), (8000, 45000),
     (10000, 56000), (12500, 71000), (16000, 90000), (20000, 110000), (25000, 140000), (32000, 180000),
     (40000, 220000), (50000, 280000), (63000, 360000), (80000, 450000), (100000, 560000), (125000, 710000)]
  | .pd2, .groupIIIA =>
    metres [(500, 12000), (1250, 15000), (2500, 25000), (4000, 40000), (5000, 50000), (8000, 63000),
     (10000, 80000), (12500, 100000), (16000, 125000), (20000, 160000), (25000, 200000), (32000, 250000),
     (40000, 320000), (50000, 400000), (63000, 500000), (80000, 630000), (100000, 800000), (125000, 1000000)]
  | .pd2, .groupIIIB =>
    metres [(500, 12000), (1250, 15000), (2500, 25000), (4000, 40000), (5000, 50000), (8000, 63000),
     (10000, 80000), (12500, 100000), (16000, 125000), (20000, 160000), (25000, 200000), (32000, 250000),
     (40000, 320000), (50000, 400000), (63000, 500000), (80000, 630000), (100000, 800000), (125000, 1000000)]
  | .pd3, .groupI =>
    metres [(500, 15000), (1250, 19000), (2500, 32000), (4000, 50000), (5000, 63000), (8000, 80000),
     (10000, 100000), (12500, 125000), (16000, 160000), (20000, 200000), (25000, 250000), (32000, 320000),
     (40000, 400000), (50000, 500000), (63000, 630000), (80000, 800000), (100000, 1000000),
     (125000, 1250000)]
  | .pd3, .groupII =>
    metres [(500, 17000), (1250, 21000), (2500, 36000), (4000, 56000), (5000, 71000), (8000, 90000),
     (10000, 110000), (12500, 140000), (16000, 180000), (20000, 220000), (25000, 280000), (32000, 360000),
     (40000, 450000), (50000, 560000), (63000, 710000), (80000, 900000), (100000, 1100000),
     (125000, 1400000)]
  | .pd3, .groupIIIA =>
    metres [(500, 19000), (1250, 24000), (2500, 40000), (4000, 63000), (5000, 80000), (8000, 100000),
     (10000, 125000), (12500, 160000), (16000, 200000), (20000, 250000), (25000, 320000), (32000, 400000),
     (40000, 500000), (50000, 630000), (63000, 800000), (80000, 1000000), (100000, 1250000),
     (125000, 1600000)]
  | .pd3, .groupIIIB =>
    metres [(500, 19000)]

/-- Table 18 (src/data/insulation_standards/IEC_60335-1.json). -/
def k18 : Pd → Cti → Table ℚ
  | .pd1, .groupI =>
    metres [(100, 800), (500, 1600), (1250, 2500), (2500, 4200), (4000, 7500), (5000, 10000),
     (8000, 18000), (10000, 24000), (12500, 32000), (16000, 42000), (20000, 56000), (25000, 75000),
     (32000, 100000), (40000, 125000), (50000, 160000), (63000, 200000), (80000, 250000), (100000, 320000),
     (125000, 400000)]
  | .pd1, .groupII =>
    metres [(100, 800), (500, 1600), (1250, 2500), (2500, 4200), (4000, 7500), (5000, 10000),
     (8000, 18000), (10000, 24000), (12500, 32000), (16000, 42000), (20000, 56000), (25000, 75000),
     (32000, 100000), (40000, 125000), (50000, 160000), (63000, 200000), (80000, 250000), (100000, 320000),
     (125000, 400000)]
  | .pd1, .groupIIIA =>
    metres [(100, 800), (500, 1600), (1250, 2500), (2500, 4200), (4000, 7500), (5000, 10000),
     (8000, 18000), (10000, 24000), (12500, 32000), (16000, 42000), (20000, 56000), (25000, 75000),
     (32000, 100000), (40000, 125000), (50000, 160000), (63000, 200000), (80000, 250000), (100000, 320000),
     (125000, 400000)]
  | .pd1, .groupIIIB =>
    metres [(100, 800), (500, 1600), (1250, 2500), (2500, 4200), (4000, 7500), (5000, 10000),
     (8000, 18000), (10000, 24000), (12500, 32000), (16000, 42000), (20000, 56000), (25000, 75000),
     (32000, 100000), (40000, 125000), (50000, 160000), (63000, 200000), (80000, 250000), (100000, 320000),
     (125000, 400000)]
  | .pd2, .groupI =>
    metres [(100, 4000), (500, 5600), (1250, 7100), (2500, 10000), (4000, 16000), (5000, 20000),
     (8000, 32000), (10000, 40000), (12500, 50000), (16000, 63000), (20000, 80000), (25000, 100000),
     (32000, 125000), (40000, 160000), (50000, 200000), (63000, 250000), (80000, 320000), (100000, 400000),
     (125000, 500000)]
  | .pd2, .groupII =>
    metres [(100, 4000), (500, 8000), (1250, 10000), (2500, 14000), (4000, 22000), (5000, 28000),
     (8000, 45000), (10000, 56000), (12500, 71000), (16000, 90000), (20000, 110000), (25000, 140000),
     (32000, 180000), (40000, 220000), (50000, 280000), (63000, 360000), (80000, 450000), (100000, 560000),
     (125000, 710000)]
  | .pd2, .groupIIIA =>
    metres [(100, 4000), (500, 11000), (1250, 14000), (2500, 20000), (4000, 32000), (5000, 40000),
     (8000, 63000), (10000, 80000), (12500, 100000), (16000, 125000), (20000, 160000), (25000, 200000),
     (32000, 250000), (40000, 320000), (50000, 400000), (63000, 500000), (80000, 630000), (100000, 800000),
     (125000, 1000000)]
  | .pd2, .groupIIIB =>
    metres [(100, 4000), (500, 11000), (1250, 14000), (2500, 20000), (4000, 32000), (5000, 40000),
     (8000, 63000), (10000, 80000), (12500, 100000), (16000, 125000), (20000, 160000), (25000, 200000),
     (32000, 250000), (40000, 320000), (50000, 400000), (63000, 500000), (80000, 630000), (100000, 800000),
     (125000, 1000000)]
  | .pd3, .groupI =>
    metres [(100, 10000), (500, 14000), (1250, 18000), (2500, 25000), (4000, 40000), (5000, 50000),
     (8000, 80000), (10000, 100000), (12500, 125000), (16000, 160000), (20000, 200000), (25000, 250000),
     (32000, 320000), (40000, 400000), (50000, 500000), (63000, 630000), (80000, 800000),
     (100000, 1000000), (125000, 1250000)]
  | .pd3, .groupII =>
    metres [(100, 10000), (500, 16000), (1250, 20000), (2500, 28000), (4000, 45000), (5000, 56000),
     (8000, 90000), (10000, 110000), (12500, 140000), (16000, 180000), (20000, 220000), (25000, 280000),
     (32000, 360000), (40000, 450000), (50000, 560000), (63000, 710000), (80000, 900000),
     (100000, 1100000), (125000, 1400000)]
  | .pd3, .groupIIIA =>
    metres [(100, 10000), (500, 18000), (1250, 22000), (2500, 32000), (4000, 50000), (5000, 63000),
     (8000, 100000), (10000, 125000), (12500, 160000), (16000, 200000), (20000, 250000), (25000, 320000),
     (32000, 400000), (40000, 500000), (50000, 630000), (63000, 800000), (80000, 1000000),
     (100000, 1250000), (125000, 1600000)]
  | .pd3, .groupIIIB =>
    metres [(100, 10000), (500, 18000)]

/-- Table 19 (src/data/insulation_standards/IEC_60335-1.json). -/
def k19 : Ovc → Table ℚ
  | .i =>
    metres [(500, 100), (1500, 1000), (3000, 3000)]
  | .ii =>
    metres [(500, 400), (1500, 3000), (3000, 6000)]
  | .iii =>
    metres [(500, 1000), (1500, 6000), (3000, 12000)]
  | .iv =>
    []

/-- The shipped tables of IEC 60664. -/
def t664 : T60664 ℚ :=
  { a2 := a2, f1 := f1, f2 := f2, f3 := f3, f5 := f5, f8 := f8, p4t1 := p4t1, p4t2 := p4t2, p5t2 := p5t2,
    p5t3 := p5t3, p5t4 := p5t4 }

/-- The shipped tables of IEC 62368. -/
def t623 : T62368 ℚ :=
  { t10 := g10, t11 := g11, t12 := g12, t14 := g14, t16 := g16, t17 := g17, t18 := g18, t25 := g25, t26 := g26,
    t27 := g27, g13 := gG13 }

/-- The shipped tables of IEC 61558. -/
def t615 : T61558 ℚ :=
  { t14 := h14, t20 := h20, t21 := h21, t22 := h22, t103 := h103, t104 := h104, tHigh := hHigh }

/-- The shipped tables of IEC 60335. -/
def t603 : T60335 ℚ := { t7 := k7, t15 := k15, t16 := k16, t17 := k17, t18 := k18, t19 := k19 }

/-- All shipped tables. -/
def all : Tables ℚ := { t664 := t664, t623 := t623, t615 := t615, t603 := t603 }

end Verif.Standards.Shipped
