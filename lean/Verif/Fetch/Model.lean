import Verif.Datasets.Model

/-!
# Fetching datasets through a folder on disk: model (C109)

Sources: `/repo/skmine/datasets/fimi.py:80-116, 119-500`, `/repo/skmine/datasets/periodic.py:53-155`, `/repo/skmine/datasets/_base.py:8-34`.

The content of a file or of an answer of a server is a value of an arbitrary type `β`. Decoding (`gzip`, UTF-8) and the CSV reader, writer and date parser of pandas are parameters (`Lib`). The servers are a function from URLs to contents, `none` for
a failed download, which may be different at each call. A download that fails writes nothing (`wget` downloads to a temporary file). The names of the series are left out.
-/

set_option autoImplicit false

namespace Verif.Fetch

open Verif.Text Verif.Datasets

/-- Exceptions. -/
inductive Err
  | noFolder
  | download
  | decode
  | value
  deriving DecidableEq

/-- The two collections of `/repo/skmine/datasets/fimi.py:13-14`, or another address. -/
inductive Base
  | fimi
  | cgi
  | other (url : String)
  deriving DecidableEq

/-- The addresses, `/repo/skmine/datasets/fimi.py:13-14`. -/
def Base.url : Base → String
  | .fimi => "http://fimi.uantwerpen.be/data/"
  | .cgi => "https://cgi.csc.liv.ac.uk/~frans/KDD/Software/LUCS-KDD-DN/DataSets/"
  | .other u => u

/-- The two logs of `/repo/skmine/datasets/periodic.py:53-155`. -/
inductive Log
  | health
  | tv
  deriving DecidableEq

/-- The addresses, `/repo/skmine/datasets/periodic.py:13-14`. -/
def Log.url : Log → String
  | .health => "https://raw.githubusercontent.com/logpai/loghub/master/HealthApp/HealthApp_2k.log"
  | .tv => "https://zenodo.org/record/4671512/files/canadian_tv.txt"

/-- What is not modelled: decoding, and pandas. `γ` are the two columns of texts, `δ` the series with its dates. -/
structure Lib (β γ δ : Type) where
  plain : β → Option (List Char)
  unzip : β → Option (List Char)
  /-- `read_csv` with the options for the data on the server. -/
  parse : Log → β → Option γ
  /-- `to_csv` -/
  write : γ → β
  /-- `read_csv` with the options for the file on disk. -/
  readBack : β → Option γ
  /-- `to_datetime` on the index -/
  dates : Log → γ → Option δ

/-- The folders that exist and the files in them. -/
structure Disk (β : Type) where
  folders : List String
  files : List ((String × String) × β)

variable {β γ δ : Type}

/-- `data_home or get_data_home()`, `/repo/skmine/datasets/fimi.py:103` and `/repo/skmine/datasets/_base.py:26-34`. The folder and the disk after it; `standard` is the folder by default, which is created if it does not exist. A folder that is given is neither
expanded nor created. -/
def homeOf (standard : String) (disk : Disk β) : Option String → String × Disk β
  | some d => if d = "" then (standard, ⟨if standard ∈ disk.folders then disk.folders else standard :: disk.folders, disk.files⟩) else (d, disk)
  | none => (standard, ⟨if standard ∈ disk.folders then disk.folders else standard :: disk.folders, disk.files⟩)

/-- `_read_dat` on a file, `/repo/skmine/datasets/fimi.py:36-50`, for integers. -/
def readRows (lib : Lib β γ δ) (zip : Bool) (b : β) : Except Err (List (List ℤ)) :=
  match if zip then lib.unzip b else lib.plain b with
  | none => .error .decode
  | some text =>
    match readDat parseInt ' ' text with
    | none => .error .value
    | some rows => .ok rows

/-- `fetch_any`, `/repo/skmine/datasets/fimi.py:80-116`. -/
def fetchAny (lib : Lib β γ δ) (standard : String) (web : String → Option β) (disk : Disk β) (base : Base) (name : String) (home : Option String) : Except Err (List (List ℤ)) × Disk β :=
  let (dir, disk) := homeOf standard disk home
  if dir ∈ disk.folders then
    match disk.files.lookup (dir, name) with
    | some b => (readRows lib (decide (base.url = Base.cgi.url)) b, disk)
    | none =>
      match web (base.url ++ name) with
      | none => (.error .download, disk)
      | some b => (readRows lib (decide (base.url = Base.cgi.url)) b, ⟨disk.folders, ((dir, name), b) :: disk.files⟩)
  else (.error .noFolder, disk)

/-- `fetch_health_app` and `fetch_canadian_tv`, `/repo/skmine/datasets/periodic.py:82-97, 139-155`: what is stored is the table that was read, not the answer of the server. -/
def fetchLog (lib : Lib β γ δ) (standard : String) (web : String → Option β) (disk : Disk β) (log : Log) (name : String) (home : Option String) : Except Err δ × Disk β :=
  let (dir, disk) := homeOf standard disk home
  if dir ∈ disk.folders then
    match disk.files.lookup (dir, name) with
    | some b =>
      match lib.readBack b with
      | none => (.error .value, disk)
      | some s =>
        match lib.dates log s with
        | none => (.error .value, disk)
        | some r => (.ok r, disk)
    | none =>
      match web log.url with
      | none => (.error .download, disk)
      | some b =>
        match lib.parse log b with
        | none => (.error .value, disk)
        | some s =>
          match lib.dates log s with
          | none => (.error .value, ⟨disk.folders, ((dir, name), lib.write s) :: disk.files⟩)
          | some r => (.ok r, ⟨disk.folders, ((dir, name), lib.write s) :: disk.files⟩)
  else (.error .noFolder, disk)

/-- The datasets with a function of their own. -/
inductive Data
  | chess | connect | mushroom | pumsb | pumsbStar | kosarak | retail | accidents | iris | breast | tictactoe
  deriving DecidableEq

/-- Their collections and file names, `/repo/skmine/datasets/fimi.py:141, 166, 219, 252, 277, 304, 340, 370, 404, 444, 485`. -/
def Data.source : Data → Base × String
  | .chess => (.fimi, "chess.dat")
  | .connect => (.fimi, "connect.dat")
  | .mushroom => (.fimi, "mushroom.dat")
  | .pumsb => (.fimi, "pumsb.dat")
  | .pumsbStar => (.fimi, "pumsb_star.dat")
  | .kosarak => (.fimi, "kosarak.dat")
  | .retail => (.fimi, "retail.dat")
  | .accidents => (.fimi, "accidents.dat")
  | .iris => (.cgi, "iris.D19.N150.C3.num.gz")
  | .breast => (.cgi, "breast.D20.N699.C2.num")
  | .tictactoe => (.cgi, "ticTacToe.D29.N958.C2.num")

/-- The answer with `return_y`: `s.str[0]`, `s.str[1:]` of the mushrooms with 2 replaced by 0 (`fimi.py:220-223`), `s.str[-1]` and `s.str[:-1]` of the other three (`fimi.py:405-408, 445-448, 486-489`). An item that is missing would be a missing value. -/
def split (d : Data) (rows : List (List ℤ)) : List (List ℤ) × List (Option ℤ) :=
  match d with
  | .mushroom => (rows.map List.tail, rows.map (fun t => t.head?.map (fun c => if c = 2 then 0 else c)))
  | _ => (rows.map List.dropLast, rows.map List.getLast?)

/-- A call: of the function of a dataset, of `fetch_any`, of the functions of the logs. -/
inductive Call
  | data (d : Data)
  | any (base : Base) (name : String)
  | log (l : Log) (name : String)
  deriving DecidableEq

/-- What a call returns: transactions or a log. -/
inductive Answer (δ : Type)
  | rows (r : List (List ℤ))
  | log (s : δ)
  deriving DecidableEq

/-- A call, on a disk and with servers in some state. -/
def step (lib : Lib β γ δ) (standard : String) (web : String → Option β) (disk : Disk β) (home : Option String) : Call → Except Err (Answer δ) × Disk β
  | .data d => let r := fetchAny lib standard web disk d.source.1 d.source.2 home; (r.1.map .rows, r.2)
  | .any base name => let r := fetchAny lib standard web disk base name home; (r.1.map .rows, r.2)
  | .log l name => let r := fetchLog lib standard web disk l name home; (r.1.map .log, r.2)

/-- Calls one after the other: the disk at the end. Each call comes with its folder and the state of the servers at its time. -/
def run (lib : Lib β γ δ) (standard : String) : Disk β → List (Call × Option String × (String → Option β)) → Disk β
  | disk, [] => disk
  | disk, c :: cs => run lib standard (step lib standard c.2.2 disk c.2.1 c.1).2 cs

end Verif.Fetch
