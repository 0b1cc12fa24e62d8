/.lake
/lake-manifest.json
