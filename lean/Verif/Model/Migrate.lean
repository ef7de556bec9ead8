/-!
# Migrations of the Postgres backend

rexecutor-sqlx/migrations and `RexecutorPgBackend::run_migrations`, rexecutor-sqlx/src/lib.rs:106-113.

`sqlx::migrate!()` embeds the scripts of the directory. Assumptions on `sqlx` 0.8.6: `Migrator::run` takes an advisory lock (so that several
of them run one after the other), creates the table `_sqlx_migrations` if need be, fails if that table lists a version it does not know, and
then goes through its migrations in order: one that is listed with the same checksum is skipped, one with another checksum is an error, and
others are applied. To apply one it begins a transaction, sends the script, inserts the version into `_sqlx_migrations` and
commits. The table `_sqlx_migrations` is the same for all migrators that use the database.

Assumptions on PostgreSQL: data definition is transactional; `BEGIN` in a transaction and `COMMIT` outside of one are warnings; an error undoes
the transaction and the rest of the script is skipped; when the connection is lost what has not been committed is undone.

Simplifications: columns are left out, and the objects of the scripts are told apart by kind and name; all are in one schema.
-/

namespace Rexecutor.Migrate

/-- An object of the database. -/
inductive Obj where
  | type (name : String)
  /-- with the types of its columns that are not built in -/
  | table (name : String) (types : List String)
  | index (name table : String)
  | function (name : String)
  | trigger (name table function : String)
  deriving DecidableEq, Repr

/-- The database. `applied` is the table `_sqlx_migrations`: version and checksum. -/
structure Db where
  objects : List Obj := []
  applied : List (Nat × Nat) := []
  deriving DecidableEq, Repr

/-- The statements of the scripts and of `sqlx`. -/
inductive Stmt where
  | begin
  | commit
  /-- `CREATE TYPE` in a `DO` block that ignores `duplicate_object` -/
  | createType (name : String)
  /-- `CREATE TABLE IF NOT EXISTS` -/
  | createTable (name : String) (types : List String)
  /-- `CREATE INDEX IF NOT EXISTS` -/
  | createIndex (name table : String)
  /-- `CREATE OR REPLACE FUNCTION` -/
  | createFunction (name : String)
  /-- `CREATE TRIGGER` -/
  | createTrigger (name table function : String)
  /-- `DROP TRIGGER IF EXISTS .. ON ..` -/
  | dropTrigger (name table : String)
  /-- `DROP FUNCTION IF EXISTS` -/
  | dropFunction (name : String)
  /-- `DROP INDEX IF EXISTS` -/
  | dropIndex (name : String)
  /-- `DROP TABLE IF EXISTS`, with its indexes and triggers -/
  | dropTable (name : String)
  /-- `DROP TYPE IF EXISTS` -/
  | dropType (name : String)
  /-- `INSERT INTO _sqlx_migrations` -/
  | record (version checksum : Nat)
  deriving DecidableEq, Repr

/-- The object is a type of this name; and so on. -/
def Obj.isType (n : String) : Obj → Bool | .type m => m == n | _ => false
def Obj.isTable (n : String) : Obj → Bool | .table m _ => m == n | _ => false
def Obj.isIndex (n : String) : Obj → Bool | .index m _ => m == n | _ => false
def Obj.isFunction (n : String) : Obj → Bool | .function m => m == n | _ => false
def Obj.isTrigger (n t : String) : Obj → Bool | .trigger m u _ => m == n && u == t | _ => false
/-- The object belongs to the table and goes with it. -/
def Obj.ofTable (t : String) : Obj → Bool
  | .table m _ => m == t
  | .index _ u => u == t
  | .trigger _ u _ => u == t
  | _ => false
/-- The object depends on the function. -/
def Obj.uses (f : String) : Obj → Bool | .trigger _ _ g => g == f | _ => false
/-- The object depends on the type. -/
def Obj.hasType (y : String) : Obj → Bool | .table _ ys => ys.contains y | _ => false

/-- The effect of a statement, `none` if it fails. -/
def Stmt.effect (d : Db) : Stmt → Option Db
  | .begin => some d
  | .commit => some d
  | .createType n => some (if d.objects.any (·.isType n) then d else { d with objects := d.objects ++ [.type n] })
  | .createTable n ys =>
    if d.objects.any (·.isTable n) then some d
    else if ys.all fun y => d.objects.any (·.isType y) then some { d with objects := d.objects ++ [.table n ys] }
    else none
  | .createIndex n t =>
    if d.objects.any (·.isIndex n) then some d
    else if d.objects.any (·.isTable t) then some { d with objects := d.objects ++ [.index n t] }
    else none
  | .createFunction n => some (if d.objects.any (·.isFunction n) then d else { d with objects := d.objects ++ [.function n] })
  | .createTrigger n t f =>
    if d.objects.any (·.isTable t) && d.objects.any (·.isFunction f) && !d.objects.any (·.isTrigger n t) then
      some { d with objects := d.objects ++ [.trigger n t f] }
    else none
  | .dropTrigger n t => some { d with objects := d.objects.filter fun o => !o.isTrigger n t }
  | .dropFunction n =>
    if d.objects.any (·.isFunction n) && d.objects.any (·.uses n) then none
    else some { d with objects := d.objects.filter fun o => !o.isFunction n }
  | .dropIndex n => some { d with objects := d.objects.filter fun o => !o.isIndex n }
  | .dropTable n => some { d with objects := d.objects.filter fun o => !o.ofTable n }
  | .dropType n =>
    if d.objects.any (·.isType n) && d.objects.any (·.hasType n) then none
    else some { d with objects := d.objects.filter fun o => !o.isType n }
  | .record v c => if d.applied.any (·.1 == v) then none else some { d with applied := d.applied ++ [(v, c)] }

/-- A connection: what is committed, what it sees, and whether it is in a transaction. -/
structure Session where
  durable : Db
  view : Db
  inTx : Bool := false
  deriving DecidableEq, Repr

/-- One statement, `none` if it fails. -/
def Session.exec (s : Session) : Stmt → Option Session
  | .begin => some { s with inTx := true }
  | .commit => some { durable := s.view, view := s.view, inTx := false }
  | st => (st.effect s.view).map fun d => { durable := if s.inTx then s.durable else d, view := d, inTx := s.inTx }

/-- Statements one after another up to the first that fails; the flag says whether none has. What has not been committed then is lost. -/
def Session.script (s : Session) : List Stmt → Bool × Db
  | [] => (true, s.durable)
  | st :: sts =>
    match s.exec st with
    | none => (false, s.durable)
    | some s' => s'.script sts

/-- A migration. -/
structure Migration where
  version : Nat
  checksum : Nat
  script : List Stmt
  deriving DecidableEq, Repr

/-- What `PgConnection::apply` of `sqlx` sends. -/
def Migration.statements (m : Migration) : List Stmt :=
  .begin :: m.script ++ [.record m.version m.checksum, .commit]

/-- The result of `Migrator::run`. -/
inductive Outcome where
  | ok
  /-- `VersionMissing` -/
  | unknownVersion
  /-- `VersionMismatch` -/
  | mismatch
  /-- a statement failed -/
  | failed
  /-- the connection was lost or the program ended -/
  | cut
  deriving DecidableEq, Repr

/-- The loop over the migrations in `Migrator::run`. If `cut` is `some k`, the connection is lost after `k` further statements. -/
def runAll (cut : Option Nat) (d : Db) : List Migration → Outcome × Db
  | [] => (.ok, d)
  | m :: ms =>
    match d.applied.find? (·.1 == m.version) with
    | some (_, c) => if c = m.checksum then runAll cut d ms else (.mismatch, d)
    | none =>
      match cut with
      | none =>
        match Session.script { durable := d, view := d } m.statements with
        | (true, d') => runAll none d' ms
        | (false, d') => (.failed, d')
      | some k =>
        match Session.script { durable := d, view := d } (m.statements.take k) with
        | (false, d') => (.failed, d')
        | (true, d') => if m.statements.length ≤ k then runAll (some (k - m.statements.length)) d' ms else (.cut, d')

/-- `Migrator::run`. -/
def run (ms : List Migration) (cut : Option Nat) (d : Db) : Outcome × Db :=
  if d.applied.all fun a => ms.any fun m => m.version == a.1 then runAll cut d ms else (.unknownVersion, d)

/-- migrations/20240330221437_add-job-table.up.sql -/
def upScript : List Stmt :=
  [.begin,
   .createType "rexecutor_job_state",
   .createTable "rexecutor_jobs" ["rexecutor_job_state"],
   .createIndex "rexecutor_job_data_index" "rexecutor_jobs",
   .createIndex "rexecutor_job_meta_index" "rexecutor_jobs",
   .createIndex "rexecutor_job_uniqueness_index" "rexecutor_jobs",
   .createIndex "rexecutor_job_inserted_at_index" "rexecutor_jobs",
   .createFunction "rexecutor_new_job_notify",
   .createTrigger "rexecutor_insert" "rexecutor_jobs" "rexecutor_new_job_notify",
   .createTrigger "rexecutor_update" "rexecutor_jobs" "rexecutor_new_job_notify",
   .commit]

/-- migrations/20240330221437_add-job-table.down.sql -/
def downScript : List Stmt :=
  [.begin,
   .dropTrigger "rexecutor_insert" "rexecutor_jobs",
   .dropTrigger "rexecutor_update" "rexecutor_jobs",
   .dropFunction "rexecutor_new_job_notify",
   .dropIndex "rexecutor_job_data_index",
   .dropIndex "rexecutor_job_meta_index",
   .dropIndex "rexecutor_job_uniqueness_index",
   .dropIndex "rexecutor_job_inserted_at_index",
   .dropTable "rexecutor_jobs",
   .dropType "rexecutor_job_state",
   .commit]

/-- The one migration of the backend; `checksum` stands for the hash of the script. -/
def jobTable (checksum : Nat) : Migration where
  version := 20240330221437
  checksum := checksum
  script := upScript

/-- `RexecutorPgBackend::run_migrations`, lib.rs:106-113. -/
def runMigrations (checksum : Nat) (cut : Option Nat) (d : Db) : Outcome × Db := run [jobTable checksum] cut d

end Rexecutor.Migrate
